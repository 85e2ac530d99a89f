import Verif.Kernel
import Verif.PropsUnroll
import Verif.PropsSum
/-!
# Lanes and consolidation of the deposit kernels
-/

namespace Repro
namespace Fmt
variable {F : Fmt}

theorem add_comm_all (x y : Flt) : F.add x y = F.add y x := by
  unfold add
  by_cases xn : F.isNaN x = true
  · simp [xn]
  by_cases yn : F.isNaN y = true
  · simp [yn]
  simp only [Bool.not_eq_true] at xn yn
  simp only [xn, yn, Bool.or_self, Bool.false_eq_true, if_false]
  by_cases xi : F.isInf x = true
  · by_cases yi : F.isInf y = true
    · simp only [xi, yi, if_true, Bool.true_and]
      have hx : x.mag = F.infMag := by simpa [isInf] using xi
      have hy : y.mag = F.infMag := by simpa [isInf] using yi
      obtain ⟨a, m⟩ := x; obtain ⟨b, m'⟩ := y
      simp only at hx hy; subst hx; subst hy
      cases a <;> cases b <;> simp
    · simp only [Bool.not_eq_true] at yi; simp [xi, yi]
  · simp only [Bool.not_eq_true] at xi
    by_cases yi : F.isInf y = true
    · simp [xi, yi]
    · simp only [Bool.not_eq_true] at yi
      simp only [xi, yi, Bool.false_eq_true, if_false]
      rw [Int.add_comm, Bool.and_comm]

theorem kloop_eq (x : Flt) (pri : List Flt) : F.kloop x pri = F.depositLoop x pri := by
  induction pri generalizing x with
  | nil => rfl
  | cons m ms ih =>
    cases ms with
    | nil => rfl
    | cons m' ms' =>
      unfold kloop depositLoop
      dsimp only
      rw [ih, add_comm_all m]

/-- The kernel step is the library's deposit on finite data. -/
theorem kstep_eq {x : Flt} {pri : List Flt} (hx : F.Finite x) (hp : F.isNaNInf (nth pri 0) = false) :
    F.kstep (F.dmindex0 (nth pri 0)) x pri = F.dmddeposit x pri := by
  unfold kstep dmddeposit
  rw [isNaNInf_false hx, hp]
  simp only [Bool.or_self, Bool.false_eq_true, if_false]
  split
  · cases pri with
    | nil => rfl
    | cons m ms =>
      dsimp only
      rw [kloop_eq, add_comm_all m]
  · exact kloop_eq _ _

/-! ### primaries given by offsets -/

/-- The primaries with offsets `B`. -/
def priB (F : Fmt) (fold k : Nat) (B : Nat → Int) : List Flt := (List.range' k fold).map (fun j => F.mkPri j (B j))

theorem nth_priB {fold k : Nat} {B : Nat → Int} {i : Nat} (hi : i < fold) : nth (F.priB fold k B) i = F.mkPri (k + i) (B (k + i)) :=
  nth_map_range' hi

/-- Absolute slices of a list in bin `j`. -/
def absTotal (F : Fmt) (xs : List Flt) (j : Nat) : Int := (xs.map (fun x => |F.slice (F.toInt x) j|)).sum

theorem absTotal_nil (j : Nat) : F.absTotal [] j = 0 := rfl

theorem absTotal_cons (x : Flt) (xs : List Flt) (j : Nat) :
    F.absTotal (x :: xs) j = |F.slice (F.toInt x) j| + F.absTotal xs j := by
  simp [absTotal]

theorem absTotal_nonneg (xs : List Flt) (j : Nat) : 0 ≤ F.absTotal xs j := by
  induction xs with
  | nil => simp [absTotal]
  | cons x xs ih => rw [absTotal_cons]; have := abs_nonneg (F.slice (F.toInt x) j); omega

theorem total_le_abs (xs : List Flt) (j : Nat) : |F.total xs j| ≤ F.absTotal xs j := by
  induction xs with
  | nil => simp [absTotal, total]
  | cons x xs ih =>
    rw [absTotal_cons, total_cons]
    have := abs_add_le (F.slice (F.toInt x) j) (F.total xs j); omega

theorem win_of_abs {b : Int} (h : |b| < 2 ^ (F.p - 2)) : F.Win b := by
  rw [abs_lt] at h; exact h

/-- Depositing a list into one lane. -/
theorem kstep_list [F.OK] {fold k : Nat} (hfold : 2 ≤ fold) (hk : k ≤ F.maxIndex) :
    ∀ (xs : List Flt) (B : Nat → Int), (∀ x ∈ xs, F.Finite x ∧ F.Fits (F.toInt x) k) →
    (∀ j, |B j| + F.absTotal xs j < 2 ^ (F.p - 2)) →
    xs.foldl (fun s x => F.kstep (decide (k = 0)) x s) (F.priB fold k B) = F.priB fold k (fun j => B j + F.total xs j) := by
  intro xs
  induction xs with
  | nil => intro B _ _; simp [total_nil]
  | cons x xs ih =>
    intro B hx hB
    have hx0 := hx x List.mem_cons_self
    have hw : ∀ j, F.Win (B j) ∧ F.Win (B j + F.slice (F.toInt x) j) := by
      intro j
      have h := hB j
      rw [absTotal_cons] at h
      have h1 := absTotal_nonneg (F := F) xs j
      have h2 := abs_nonneg (F.slice (F.toInt x) j)
      have h3 := abs_add_le (B j) (F.slice (F.toInt x) j)
      exact ⟨win_of_abs (by omega), win_of_abs (by omega)⟩
    rw [List.foldl_cons]
    have hidx : F.dmindex0 (nth (F.priB fold k B) 0) = decide (k = 0) := by
      rw [nth_priB (by omega), Nat.add_zero, dmindex0_mkPri (hw k).1]
    have hni : F.isNaNInf (nth (F.priB fold k B) 0) = false := by
      rw [nth_priB (by omega), Nat.add_zero, mkPri_isNaNInf (hw k).1]
    rw [← hidx, kstep_eq hx0.1 hni, hidx]
    have := dmddeposit_eq (F := F) (fold := fold) hfold hk hx0.1 hx0.2 (B := B) (fun j _ _ => hw j)
    unfold priB at *
    rw [this, ih _ (fun z hz => hx z (List.mem_cons_of_mem _ hz))]
    · apply map_range'_congr; intro j _ _; show F.mkPri j (B j + _ + _) = F.mkPri j (B j + _); rw [total_cons]; congr 1; ring
    · intro j
      have h := hB j
      rw [absTotal_cons] at h
      have h3 := abs_add_le (B j) (F.slice (F.toInt x) j)
      omega

/-! ### lanes are independent -/

/-- The values dealt to lane `l`. -/
def laneVals (tr : List (Nat × Flt)) (l : Nat) : List Flt := (tr.filter (fun d => d.1 == l)).map Prod.snd

theorem lanes_aux (f : Flt → List Flt → List Flt) (pri : List Flt) : ∀ (tr : List (Nat × Flt)) (s : List (List Flt)) (l : Nat),
    l < s.length →
    (tr.foldl (fun s d => s.set d.1 (f d.2 (s.getD d.1 pri))) s).getD l pri
      = (laneVals tr l).foldl (fun s x => f x s) (s.getD l pri) := by
  intro tr
  induction tr with
  | nil => intro s l _; rfl
  | cons d tr ih =>
    intro s l hl
    rw [List.foldl_cons, ih _ l (by rw [List.length_set]; exact hl)]
    unfold laneVals
    by_cases hd : d.1 = l
    · rw [List.filter_cons_of_pos (by simp [hd]), List.map_cons, List.foldl_cons]
      congr 1
      rw [hd, List.getD_eq_getElem?_getD, List.getElem?_set_self hl]; rfl
    · rw [List.filter_cons_of_neg (by simp [hd])]
      congr 1
      rw [List.getD_eq_getElem?_getD, List.getElem?_set_ne hd, ← List.getD_eq_getElem?_getD]

theorem lanes_getD (idx0 : Bool) {n : Nat} (tr : List (Nat × Flt)) (pri : List Flt) {l : Nat} (hl : l < n) :
    (F.lanes idx0 n tr pri).getD l pri = (laneVals tr l).foldl (fun s x => F.kstep idx0 x s) pri := by
  unfold lanes
  rw [lanes_aux (F.kstep idx0) pri tr _ l (by simpa using hl)]
  congr 1
  rw [List.getD_eq_getElem?_getD, List.getElem?_replicate_of_lt hl]; rfl

/-! ### sums over lanes -/

theorem sumTo_comm (f : Nat → Nat → Int) (m n : Nat) :
    sumTo (fun i => sumTo (fun r => f i r) n) m = sumTo (fun r => sumTo (fun i => f i r) m) n := by
  induction m with
  | zero => exact (sumTo_zero n).symm
  | succ m ih => simp only [sumTo]; rw [ih, ← sumTo_add]

theorem sumTo_split (f : Nat → Int) (b n : Nat) : sumTo f (n + b) = sumTo f n + sumTo (fun i => f (n + i)) b := by
  induction b with
  | zero => simp [sumTo]
  | succ b ih => rw [← Nat.add_assoc]; simp only [sumTo]; rw [ih]; ring

theorem sumTo_blocks (f : Nat → Int) (b R : Nat) : sumTo (fun r => sumTo (fun i => f (r * b + i)) b) R = sumTo f (R * b) := by
  induction R with
  | zero => simp [sumTo]
  | succ R ih => simp only [sumTo]; rw [ih, Nat.add_mul, Nat.one_mul, sumTo_split]

theorem sumTo_abs (f : Nat → Int) (n : Nat) : |sumTo f n| ≤ sumTo (fun i => |f i|) n := by
  induction n with
  | zero => simp [sumTo]
  | succ n ih => simp only [sumTo]; have := abs_add_le (sumTo f n) (f n); omega

theorem sumTo_nonneg {f : Nat → Int} (h : ∀ i, 0 ≤ f i) (n : Nat) : 0 ≤ sumTo f n := by
  induction n with
  | zero => simp [sumTo]
  | succ n ih => simp only [sumTo]; have := h n; omega

theorem sumTo_mono {f : Nat → Int} (h : ∀ i, 0 ≤ f i) {m n : Nat} (hmn : m ≤ n) : sumTo f m ≤ sumTo f n := by
  induction n with
  | zero => have : m = 0 := by omega
            subst this; rfl
  | succ n ih =>
    by_cases he : m = n + 1
    · subst he; rfl
    · have := ih (by omega); simp only [sumTo]; have := h n; omega

theorem sumTo_le {f g : Nat → Int} {n : Nat} (h : ∀ i, i < n → f i ≤ g i) : sumTo f n ≤ sumTo g n := by
  induction n with
  | zero => exact le_refl _
  | succ n ih =>
    simp only [sumTo]
    have := ih (fun i hi => h i (by omega)); have := h n (by omega); omega

theorem le_sumTo {f : Nat → Int} (h : ∀ i, 0 ≤ f i) {i n : Nat} (hi : i < n) : f i ≤ sumTo f n := by
  have h1 := sumTo_mono h (show i + 1 ≤ n by omega)
  have h2 := sumTo_nonneg h i
  simp only [sumTo] at h1; omega

theorem sumTo_single (c : Int) {l n : Nat} (hl : l < n) : sumTo (fun i => if l = i then c else 0) n = c := by
  induction n with
  | zero => omega
  | succ n ih =>
    simp only [sumTo]
    by_cases h : l = n
    · subst h
      have : sumTo (fun i => if l = i then c else 0) l = 0 := by
        exact (sumTo_congr (fun i hi => if_neg (by omega))).trans (sumTo_zero l)
      rw [this]; simp
    · rw [ih (by omega), if_neg h]; simp

/-- Sums over the lanes are sums over the whole trace. -/
theorem sumTo_lanes (g : Flt → Int) (tr : List (Nat × Flt)) (n : Nat) (h : ∀ d ∈ tr, d.1 < n) :
    sumTo (fun l => ((laneVals tr l).map g).sum) n = (tr.map (fun d => g d.2)).sum := by
  induction tr with
  | nil => simp [laneVals, sumTo_zero]
  | cons d tr ih =>
    have e : ∀ l, ((laneVals (d :: tr) l).map g).sum = (if d.1 = l then g d.2 else 0) + ((laneVals tr l).map g).sum := by
      intro l
      unfold laneVals
      by_cases hd : d.1 = l
      · rw [List.filter_cons_of_pos (by simp [hd]), if_pos hd]; simp
      · rw [List.filter_cons_of_neg (by simp [hd]), if_neg hd]; simp
    rw [sumTo_congr (fun l _ => e l), sumTo_add, ih (fun z hz => h z (List.mem_cons_of_mem _ hz)),
      sumTo_single _ (h d List.mem_cons_self)]
    simp

/-! ### consolidation -/

/-- `y` is the number `c` units of bin `j`. -/
def IsOff (F : Fmt) (j : Nat) (c : Int) (y : Flt) : Prop := F.Finite y ∧ F.toInt y = c * 2 ^ F.sexp j

theorem sub_pri_off [F.OK] {j : Nat} {a b : Int} (ha : F.Win a) (hb : F.Win b) :
    F.IsOff j (a - b) (F.sub (F.mkPri j a) (F.mkPri j b)) := sub_mkF (sexp_le j) ha hb

theorem add_pri_off [F.OK] {j : Nat} {a c : Int} {y : Flt} (ha : F.Win a) (hac : F.Win (a + c)) (hy : F.IsOff j c y) :
    F.add (F.mkPri j a) y = F.mkPri j (a + c) := by
  have wa := win_mant ha
  have wac := win_mant hac
  rw [mkPri_eq, mkPri_eq]
  have := add_mkF (F := F) (u := F.sexp j) (m := 3 * 2 ^ (F.p - 2) + a) (s := c) (sexp_le j) hy.1
    (le_of_lt wa.1) wa.2 (by rw [add_assoc]; exact wac.1) (by rw [add_assoc]; exact wac.2)
    (by rw [hy.2, sub_self, mul_zero]; exact ipow_pos _)
    (by rw [hy.2, sub_self, mul_zero]; have := ipow_pos (F.sexp j); omega)
  rw [this, add_assoc]

theorem zero_off [F.OK] {j : Nat} (n : Bool) : F.IsOff j 0 ⟨n, 0⟩ := by
  refine ⟨?_, ?_⟩
  · show 0 < F.infMag
    exact Nat.lt_of_le_of_lt (Nat.zero_le _) emax_big
  · have : F.val 0 = 0 := val_eq_zero.2 rfl
    unfold toInt; simp [this]

theorem sub_pri_zero [F.OK] {j : Nat} {a : Int} (ha : F.Win a) : F.sub (F.mkPri j a) zero = F.mkPri j a := by
  unfold sub
  have := add_pri_off (F := F) (j := j) (c := 0) ha (by rw [add_zero]; exact ha) (zero_off (F := F) true)
  rw [add_zero] at this
  exact this

theorem add_offs [F.OK] {j : Nat} {b c : Int} {y z : Flt} (hy : F.IsOff j b y) (hz : F.IsOff j c z) (h : |b + c| < 2 ^ F.p) :
    F.IsOff j (b + c) (F.add y z) := by
  have hs := sexp_le (F := F) j
  have hna : (F.toInt y + F.toInt z).natAbs = (b + c).natAbs * 2 ^ F.sexp j := by
    rw [hy.2, hz.2, ← add_mul, Int.natAbs_mul]; congr 1
  have hm : (b + c).natAbs < 2 ^ F.p := by
    have := cast_pow F.p
    rw [Int.abs_eq_natAbs] at h; omega
  have hb : (b + c).natAbs * 2 ^ F.sexp j < 2 ^ (F.p + F.emax - 2) := by
    have h1 : (b + c).natAbs * 2 ^ F.sexp j < 2 ^ F.p * 2 ^ F.sexp j := Nat.mul_lt_mul_of_pos_right hm (pow_pos' _)
    rw [← Nat.pow_add] at h1
    have ⟨hp, _, _, _, he, _⟩ := F.facts
    exact Nat.lt_of_lt_of_le h1 (Nat.pow_le_pow_right (by omega) (by omega))
  have := add_exact (F := F) hy.1 hz.1 hna hm hb
  exact ⟨this.1, by rw [this.2, hy.2, hz.2]; ring⟩

theorem foldl_range'_succ {α : Type} (f : α → Nat → α) (a : α) (m : Nat) :
    (List.range' 1 (m + 1)).foldl f a = f ((List.range' 1 m).foldl f a) (m + 1) := by
  rw [List.range'_1_concat, List.foldl_append]
  show f _ (1 + m) = _
  rw [Nat.add_comm]

theorem cons_pri [F.OK] {j : Nat} {b : Int} {o : Nat → Int} {s : Nat → Flt} {a0 : Flt}
    (h0 : a0 = F.mkPri j (b + o 0)) : ∀ m,
    (∀ r, 1 ≤ r → r ≤ m → F.IsOff j (o r) (s r)) → |b| + sumTo (fun i => |o i|) (m + 1) < 2 ^ (F.p - 2) →
    (List.range' 1 m).foldl (fun a r => F.add a (s r)) a0 = F.mkPri j (b + sumTo o (m + 1)) := by
  intro m
  induction m with
  | zero => intro _ _; simp [sumTo, h0]
  | succ m ih =>
    intro hs hb
    rw [foldl_range'_succ, ih (fun r h1 h2 => hs r h1 (by omega)) (by
      have := sumTo_mono (f := fun i => |o i|) (fun i => abs_nonneg _) (show m + 1 ≤ m + 1 + 1 by omega); omega)]
    have h1 := sumTo_abs o (m + 1)
    have h2 := sumTo_abs o (m + 1 + 1)
    have h3 := abs_add_le b (sumTo o (m + 1))
    have h4 := abs_add_le b (sumTo o (m + 1 + 1))
    have h5 := sumTo_mono (f := fun i => |o i|) (fun i => abs_nonneg _) (show m + 1 ≤ m + 1 + 1 by omega)
    have e : b + sumTo o (m + 1 + 1) = b + sumTo o (m + 1) + o (m + 1) := by simp only [sumTo]; ring
    rw [e]
    apply add_pri_off (win_of_abs (by omega)) _ (hs (m + 1) (by omega) (by omega))
    rw [← e]; exact win_of_abs (by omega)

theorem cons_off [F.OK] {j : Nat} {o : Nat → Int} {s : Nat → Flt} {a0 : Flt}
    (h0 : F.IsOff j (o 0) a0) : ∀ m,
    (∀ r, 1 ≤ r → r ≤ m → F.IsOff j (o r) (s r)) → sumTo (fun i => |o i|) (m + 1) < 2 ^ F.p →
    F.IsOff j (sumTo o (m + 1)) ((List.range' 1 m).foldl (fun a r => F.add a (s r)) a0) := by
  intro m
  induction m with
  | zero => intro _ _; simpa [sumTo] using h0
  | succ m ih =>
    intro hs hb
    have h5 := sumTo_mono (f := fun i => |o i|) (fun i => abs_nonneg _) (show m + 1 ≤ m + 1 + 1 by omega)
    have h2 := sumTo_abs o (m + 1 + 1)
    have := ih (fun r h1 h2 => hs r h1 (by omega)) (by omega)
    rw [foldl_range'_succ]
    exact add_offs this (hs (m + 1) (by omega) (by omega)) (by
      have e : sumTo o (m + 1) + o (m + 1) = sumTo o (m + 1 + 1) := rfl
      rw [e]; omega)

theorem two_p_gt [F.OK] : (2 : Int) ^ (F.p - 2) < 2 ^ F.p := by
  have h1 : (2 : Int) ^ F.p = 2 * 2 ^ (F.p - 1) := by exact_mod_cast two_p (F := F)
  have h2 : (2 : Int) ^ (F.p - 1) = 2 * 2 ^ (F.p - 2) := by exact_mod_cast two_p1 (F := F)
  have := ipow_pos (F.p - 2); omega

/-- Scalar consolidation of one bin. -/
theorem consSISD_eq [F.OK] {j n : Nat} {b : Int} {o : Nat → Int} {s : Nat → Flt} (hn : 1 ≤ n)
    (hs : ∀ l, l < n → s l = F.mkPri j (b + o l)) (hb : |b| + sumTo (fun i => |o i|) n < 2 ^ (F.p - 2)) :
    F.consSISD n s (F.mkPri j b) = F.mkPri j (b + sumTo o n) := by
  have hw : ∀ l, l < n → F.Win (b + o l) := by
    intro l hl
    have := le_sumTo (f := fun i => |o i|) (fun i => abs_nonneg _) hl
    have := abs_add_le b (o l)
    exact win_of_abs (by beta_reduce at *; omega)
  have hwb : F.Win b := win_of_abs (by
    have := sumTo_nonneg (f := fun i => |o i|) (fun i => abs_nonneg _) n; omega)
  obtain ⟨m, rfl⟩ : ∃ m, n = m + 1 := ⟨n - 1, by omega⟩
  unfold consSISD
  rw [Nat.add_sub_cancel]
  apply cons_pri (hs 0 (by omega)) m _ hb (s := fun r => F.sub (s r) (F.mkPri j b))
  intro r h1 h2
  show F.IsOff j (o r) (F.sub (s r) _)
  rw [hs r (by omega)]
  have := sub_pri_off (F := F) (j := j) (hw r (by omega)) hwb
  have e : b + o r - b = o r := by ring
  rwa [e] at this

/-- Vector consolidation of one bin. -/
theorem consSIMD_eq [F.OK] {j c R : Nat} {b : Int} {o : Nat → Int} {s : Nat → Flt} (hc : 1 ≤ c) (hR : 1 ≤ R)
    (hs : ∀ l, l < R * c → s l = F.mkPri j (b + o l)) (hb : |b| + sumTo (fun i => |o i|) (R * c) < 2 ^ (F.p - 2)) :
    F.consSIMD c (R * c) s (F.mkPri j b) = F.mkPri j (b + sumTo o (R * c)) := by
  have hpp := two_p_gt (F := F)
  have hb0 := abs_nonneg b
  have habs : sumTo (fun i => sumTo (fun r => |o (r * c + i)|) R) c = sumTo (fun i => |o i|) (R * c) := by
    rw [sumTo_comm (fun i r => |o (r * c + i)|)]; exact sumTo_blocks (fun i => |o i|) c R
  have hsum : sumTo (fun i => sumTo (fun r => o (r * c + i)) R) c = sumTo o (R * c) := by
    rw [sumTo_comm (fun i r => o (r * c + i))]; exact sumTo_blocks o c R
  have hlt : ∀ i r, i < c → r < R → r * c + i < R * c := by
    intro i r hi hr
    have : (r + 1) * c ≤ R * c := Nat.mul_le_mul_right _ (by omega)
    rw [Nat.add_mul, Nat.one_mul] at this; omega
  have hw : ∀ l, l < R * c → F.Win (b + o l) := by
    intro l hl
    have := le_sumTo (f := fun i => |o i|) (fun i => abs_nonneg _) hl
    have := abs_add_le b (o l)
    exact win_of_abs (by beta_reduce at *; omega)
  have hwb : F.Win b := win_of_abs (by
    have := sumTo_nonneg (f := fun i => |o i|) (fun i => abs_nonneg _) (R * c); omega)
  have hoff : ∀ i r, i < c → r < R → F.IsOff j (o (r * c + i)) (F.sub (s (r * c + i)) (F.mkPri j b)) := by
    intro i r hi hr
    rw [hs _ (hlt i r hi hr)]
    have := sub_pri_off (F := F) (j := j) (hw _ (hlt i r hi hr)) hwb
    have e : b + o (r * c + i) - b = o (r * c + i) := by ring
    rwa [e] at this
  have hin : ∀ i, i < c → sumTo (fun r => |o (r * c + i)|) R ≤ sumTo (fun i => |o i|) (R * c) := by
    intro i hi
    rw [← habs]
    exact le_sumTo (f := fun i => sumTo (fun r => |o (r * c + i)|) R) (fun i => sumTo_nonneg (fun r => abs_nonneg _) R) hi
  obtain ⟨R', rfl⟩ : ∃ m, R = m + 1 := ⟨R - 1, by omega⟩
  obtain ⟨c', rfl⟩ : ∃ m, c = m + 1 := ⟨c - 1, by omega⟩
  have hdiv : (R' + 1) * (c' + 1) / (c' + 1) - 1 = R' := by
    rw [Nat.mul_div_cancel _ (by omega)]; rfl
  unfold consSIMD
  rw [hdiv, Nat.add_sub_cancel]
  rw [← hsum]
  have hb' : |b| + sumTo (fun i => |sumTo (fun r => o (r * (c' + 1) + i)) (R' + 1)|) (c' + 1) < 2 ^ (F.p - 2) := by
    have : sumTo (fun i => |sumTo (fun r => o (r * (c' + 1) + i)) (R' + 1)|) (c' + 1) ≤
        sumTo (fun i => sumTo (fun r => |o (r * (c' + 1) + i)|) (R' + 1)) (c' + 1) :=
      sumTo_le (fun i _ => sumTo_abs _ _)
    rw [habs] at this; omega
  refine cons_pri (o := fun i => sumTo (fun r => o (r * (c' + 1) + i)) (R' + 1)) ?_ c' ?_ hb'
  · show List.foldl _ (F.sub (s 0) (if (0:Nat) = 0 then _ else _)) _ = _
    rw [if_pos rfl, hs 0 (by have := hlt 0 0 (by omega) (by omega); omega), sub_pri_zero (hw 0 (by have := hlt 0 0 (by omega) (by omega); omega))]
    have := cons_pri (F := F) (j := j) (b := b) (o := fun r => o (r * (c' + 1) + 0))
      (s := fun r => F.sub (s (r * (c' + 1) + 0)) (F.mkPri j b)) (a0 := F.mkPri j (b + o 0)) (by simp) R'
      (fun r h1 h2 => hoff 0 r (by omega) (by omega))
      (by have := hin 0 (by omega); omega)
    exact this
  · intro i h1 h2
    show F.IsOff j _ (List.foldl _ (F.sub (s i) (if i = 0 then _ else _)) _)
    rw [if_neg (by omega)]
    have h0 : F.IsOff j (o (0 * (c' + 1) + i)) (F.sub (s i) (F.mkPri j b)) := by
      have := hoff i 0 (by omega) (by omega)
      simpa using this
    exact cons_off (F := F) (o := fun r => o (r * (c' + 1) + i))
      (s := fun r => F.sub (s (r * (c' + 1) + i)) (F.mkPri j b)) h0 R'
      (fun r h1 h2 => hoff i r (by omega) (by omega))
      (by have := hin i (by omega); omega)

end Fmt
end Repro

import Verif.Value
import Verif.Conv
/-!
# Properties C01, C02, C03, C06 - C12, C15 (bits), C16, C41

`F` ranges over the two formats `f64` (double) and `f32` (float); `fold` over all folds of at least 2.
-/

namespace Repro
open Fmt
variable {F : Fmt}

/-! ### reading sequences and trees as histories -/

/-- The history that adds the elements of a list one after the other. -/
def Hist.ofList (xs : List Flt) (h : Hist) : Hist := xs.foldl (fun h x => .add x h) h

theorem ofList_eval (fold : Nat) (xs : List Flt) (h : Hist) :
    (Hist.ofList xs h).eval F fold = F.sumSeq fold xs (h.eval F fold) := by
  unfold Hist.ofList sumSeq
  induction xs generalizing h with
  | nil => rfl
  | cons x xs ih => rw [List.foldl_cons, List.foldl_cons, ih]; rfl

theorem ofList_nums (xs : List Flt) (h : Hist) : (Hist.ofList xs h).nums = xs.reverse ++ h.nums := by
  unfold Hist.ofList
  induction xs generalizing h with
  | nil => rfl
  | cons x xs ih => rw [List.foldl_cons, ih]; simp [Hist.nums]

theorem ofList_seen (xs : List Flt) (h : Hist) : (Hist.ofList xs h).seen = xs.reverse ++ h.seen := by
  unfold Hist.ofList
  induction xs generalizing h with
  | nil => rfl
  | cons x xs ih => rw [List.foldl_cons, ih]; simp [Hist.seen]

theorem ofList_legal {xs : List Flt} {h : Hist} (hx : ∀ x ∈ xs, F.Finite x) (hl : h.Legal F) :
    (Hist.ofList xs h).Legal F := by
  unfold Hist.ofList
  induction xs generalizing h with
  | nil => exact hl
  | cons x xs ih =>
    rw [List.foldl_cons]
    exact ih (fun y hy => hx y (List.mem_cons_of_mem _ hy)) ⟨hx x List.mem_cons_self, hl⟩

theorem ofList_settled (xs : List Flt) {h : Hist} (hs : xs = [] → h.Settled) : (Hist.ofList xs h).Settled := by
  unfold Hist.ofList
  induction xs generalizing h with
  | nil => exact hs rfl
  | cons x xs ih => rw [List.foldl_cons]; exact ih (fun _ => trivial)

theorem ofList_spec [F.OK] {fold : Nat} (hfold : 2 ≤ fold) {xs : List Flt} {h : Hist}
    (hx : ∀ x ∈ xs, F.Finite x) (hl : h.Legal F) (hN : xs.length + h.nums.length ≤ F.capacity)
    (hs : xs = [] → h.Settled) :
    F.sumSeq fold xs (h.eval F fold) = (Hist.ofList xs h).spec F fold := by
  rw [← ofList_eval]
  apply hist_spec hfold (ofList_legal hx hl)
  · rw [ofList_nums, List.length_append, List.length_reverse]; exact hN
  · exact ofList_settled _ hs

/-! ### C01 -/

/-- The bits left by adding the numbers one at a time are a function of the multiset of numbers:
zero for the empty sum, otherwise the canonical value with the exact totals of the slices. -/
theorem C01_sum_is_spec [F.OK] {fold : Nat} (hfold : 2 ≤ fold) {xs : List Flt}
    (hx : ∀ x ∈ xs, F.Finite x) (hN : xs.length ≤ F.capacity) :
    F.sumSeq fold xs (dmsetzero fold) = F.specSum fold xs := by
  have h := ofList_spec (F := F) (h := .zero) hfold hx trivial (by simpa [Hist.nums] using hN) (fun _ => trivial)
  have e : Hist.zero.eval F fold = dmsetzero fold := rfl
  rw [e] at h
  rw [h]
  unfold Hist.spec specSum
  have e1 : (Hist.ofList xs .zero).seen = xs.reverse := by rw [ofList_seen]; simp [Hist.seen]
  have e2 : (Hist.ofList xs .zero).nums = xs.reverse := by rw [ofList_nums]; simp [Hist.nums]
  by_cases h0 : xs = []
  · rw [if_pos (by rw [e1, h0]; rfl), if_pos h0]
  · rw [if_neg (by rw [e1]; simpa using h0), if_neg h0, e1, e2, minIndex_perm (List.reverse_perm xs)]
    congr 1; funext j; exact total_perm (List.reverse_perm xs) j

/-- **C01.** Adding finite numbers one at a time in any two orders leaves the same bits, and the same
converted result. -/
theorem C01_order_independent [F.OK] {fold : Nat} (hfold : 2 ≤ fold) {xs ys : List Flt}
    (hp : xs.Perm ys) (hx : ∀ x ∈ xs, F.Finite x) (hN : xs.length ≤ F.capacity) :
    F.sumSeq fold xs (dmsetzero fold) = F.sumSeq fold ys (dmsetzero fold) ∧
    convert F fold (F.sumSeq fold xs (dmsetzero fold)) = convert F fold (F.sumSeq fold ys (dmsetzero fold)) := by
  have : F.sumSeq fold xs (dmsetzero fold) = F.sumSeq fold ys (dmsetzero fold) := by
    rw [C01_sum_is_spec hfold hx hN, C01_sum_is_spec hfold (fun y hy => hx y (hp.mem_iff.2 hy))
      (by rw [← hp.length_eq]; exact hN)]
    exact specSum_perm hp
  exact ⟨this, by rw [this]⟩

/-- The hypotheses are met by, and the orders matter for, `1.0, 2^60, -2^60` (native addition is not
associative on these). -/
example : (∀ x ∈ [f64.pow2 0, f64.pow2 60, fneg (f64.pow2 60)], f64.Finite x) ∧
    [f64.pow2 0, f64.pow2 60, fneg (f64.pow2 60)].length ≤ f64.capacity ∧
    f64.add (f64.add (f64.pow2 0) (f64.pow2 60)) (fneg (f64.pow2 60)) ≠
      f64.add (f64.pow2 0) (f64.add (f64.pow2 60) (fneg (f64.pow2 60))) := by decide +kernel

/-! ### C02 -/

/-- A reduction tree: leaves accumulate a list into a fresh value, nodes merge (`r += l`). -/
inductive Tree where
  | leaf (xs : List Flt)
  | node (l r : Tree)

namespace Tree
/-- All summands of a tree. -/
def nums : Tree → List Flt
  | leaf xs => xs
  | node l r => l.nums ++ r.nums

/-- Run a reduction tree. -/
def eval (F : Fmt) (fold : Nat) : Tree → Binned
  | leaf xs => F.sumSeq fold xs (dmsetzero fold)
  | node l r => F.dmdmadd fold (l.eval F fold) (r.eval F fold)

def toHist : Tree → Hist
  | leaf xs => Hist.ofList xs .zero
  | node l r => .merge l.toHist r.toHist

theorem toHist_eval (fold : Nat) : ∀ t : Tree, t.toHist.eval F fold = t.eval F fold
  | leaf xs => ofList_eval fold xs .zero
  | node l r => by
    show F.dmdmadd fold _ _ = F.dmdmadd fold _ _
    rw [toHist_eval fold l, toHist_eval fold r]

theorem toHist_nums : ∀ t : Tree, t.toHist.nums.Perm t.nums
  | leaf xs => by
    show (Hist.ofList xs .zero).nums.Perm xs
    rw [ofList_nums]; simpa [Hist.nums] using List.reverse_perm xs
  | node l r => List.Perm.append (toHist_nums l) (toHist_nums r)

theorem toHist_seen : ∀ t : Tree, t.toHist.seen.Perm t.nums
  | leaf xs => by
    show (Hist.ofList xs .zero).seen.Perm xs
    rw [ofList_seen]; simpa [Hist.seen] using List.reverse_perm xs
  | node l r => List.Perm.append (toHist_seen l) (toHist_seen r)

theorem toHist_legal : ∀ t : Tree, (∀ x ∈ t.nums, F.Finite x) → t.toHist.Legal F
  | leaf _, h => ofList_legal h trivial
  | node l r, h => ⟨toHist_legal l (fun x hx => h x (List.mem_append_left _ hx)),
      toHist_legal r (fun x hx => h x (List.mem_append_right _ hx))⟩

theorem toHist_settled : ∀ t : Tree, t.toHist.Settled
  | leaf xs => ofList_settled xs (fun _ => trivial)
  | node l r => ⟨fun _ => toHist_settled r, fun _ => toHist_settled l⟩
end Tree

/-- **C02.** Every reduction tree over finite numbers gives the bits of adding all of its numbers
sequentially, in any order `xs`, to one binned value. -/
theorem C02_reduction_tree [F.OK] {fold : Nat} (hfold : 2 ≤ fold) (t : Tree) {xs : List Flt}
    (hp : t.nums.Perm xs) (hx : ∀ x ∈ xs, F.Finite x) (hN : xs.length ≤ F.capacity) :
    t.eval F fold = F.sumSeq fold xs (dmsetzero fold) := by
  have hx' : ∀ x ∈ t.nums, F.Finite x := fun x h => hx x (hp.mem_iff.1 h)
  have h := hist_spec (F := F) hfold (t.toHist_legal hx')
    (by rw [t.toHist_nums.length_eq, hp.length_eq]; exact hN) t.toHist_settled
  rw [t.toHist_eval] at h
  have e : F.sumSeq fold xs (dmsetzero fold) = (Hist.ofList xs .zero).spec F fold :=
    ofList_spec (h := .zero) hfold hx trivial (by simpa [Hist.nums] using hN) (fun _ => trivial)
  rw [h, e]
  apply hist_spec_congr
  · rw [ofList_nums]
    exact t.toHist_nums.trans (hp.trans (by simpa [Hist.nums] using (List.reverse_perm xs).symm))
  · rw [ofList_seen]
    exact t.toHist_seen.trans (hp.trans (by simpa [Hist.seen] using (List.reverse_perm xs).symm))

/-- Two trees over the same numbers agree. -/
theorem C02_trees_agree [F.OK] {fold : Nat} (hfold : 2 ≤ fold) (t u : Tree)
    (hp : t.nums.Perm u.nums) (hx : ∀ x ∈ u.nums, F.Finite x) (hN : u.nums.length ≤ F.capacity) :
    t.eval F fold = u.eval F fold := by
  rw [C02_reduction_tree hfold t hp hx hN, C02_reduction_tree hfold u (List.Perm.refl _) hx hN]

example : (Tree.node (.leaf [f32.pow2 3, f32.pow2 (-7)]) (.node (.leaf []) (.leaf [fneg (f32.pow2 3)]))).nums.Perm
    [fneg (f32.pow2 3), f32.pow2 3, f32.pow2 (-7)] ∧
    (∀ x ∈ [fneg (f32.pow2 3), f32.pow2 3, f32.pow2 (-7)], f32.Finite x) := by decide +kernel

/-! ### C03 -/

/-- **C03** (commutativity). `h`, `g` are arbitrary programs over binned values. -/
theorem C03_merge_comm [F.OK] {fold : Nat} (hfold : 2 ≤ fold) {h g : Hist} (hl : h.Legal F) (gl : g.Legal F)
    (hN : h.nums.length + g.nums.length ≤ F.capacity) :
    F.dmdmadd fold (h.eval F fold) (g.eval F fold) = F.dmdmadd fold (g.eval F fold) (h.eval F fold) := by
  have ih := hist_mid (F := F) hfold h hl (by omega)
  have ig := hist_mid (F := F) hfold g gl (by omega)
  by_cases sh : h.seen = []
  · rw [(ih.1 sh).1, merge_zero_left]
    by_cases sg : g.seen = []
    · rw [(ig.1 sg).1, merge_zero_left]
    · rw [merge_zero_right _ ((ig.2.1 sg).not_zero (by omega) (Nat.zero_le _))]
  · have mh := ih.2.1 sh
    by_cases sg : g.seen = []
    · rw [(ig.1 sg).1, merge_zero_left, merge_zero_right _ (mh.not_zero (by omega) (Nat.zero_le _))]
    · have mg := ig.2.1 sg
      rw [(Mid.merge hfold mh mg hN).1, (Mid.merge hfold mg mh (by omega)).1, Nat.min_comm]
      congr 1; funext j; ring

/-- **C03** (associativity). -/
theorem C03_merge_assoc [F.OK] {fold : Nat} (hfold : 2 ≤ fold) {h g f : Hist} (hl : h.Legal F) (gl : g.Legal F)
    (fl : f.Legal F) (hN : h.nums.length + g.nums.length + f.nums.length ≤ F.capacity) :
    F.dmdmadd fold (F.dmdmadd fold (h.eval F fold) (g.eval F fold)) (f.eval F fold) =
    F.dmdmadd fold (h.eval F fold) (F.dmdmadd fold (g.eval F fold) (f.eval F fold)) := by
  have ih := hist_mid (F := F) hfold h hl (by omega)
  have ig := hist_mid (F := F) hfold g gl (by omega)
  have if' := hist_mid (F := F) hfold f fl (by omega)
  by_cases sh : h.seen = []
  · rw [(ih.1 sh).1, merge_zero_left, merge_zero_left]
  · have mh := ih.2.1 sh
    by_cases sg : g.seen = []
    · rw [(ig.1 sg).1, merge_zero_left, merge_zero_right _ (mh.not_zero (by omega) (Nat.zero_le _))]
    · have mg := ig.2.1 sg
      have mhg := Mid.merge hfold mh mg (by omega)
      by_cases sf : f.seen = []
      · rw [(if'.1 sf).1, merge_zero_right _ (mg.not_zero (by omega) (Nat.zero_le _)),
          merge_zero_right _ (mhg.2.not_zero (by omega) (Nat.zero_le _))]
      · have mf := if'.2.1 sf
        have mgf := Mid.merge hfold mg mf (by omega)
        rw [(Mid.merge hfold mhg.2 mf (by omega)).1, (Mid.merge hfold mh mgf.2 (by omega)).1, Nat.min_assoc]
        congr 1; funext j; ring

/-- **C03** (unit): merging with a zeroed value, on either side, changes nothing. -/
theorem C03_merge_zero [F.OK] {fold : Nat} (hfold : 2 ≤ fold) {h : Hist} (hl : h.Legal F)
    (hN : h.nums.length ≤ F.capacity) :
    F.dmdmadd fold (dmsetzero fold) (h.eval F fold) = h.eval F fold ∧
    F.dmdmadd fold (h.eval F fold) (dmsetzero fold) = h.eval F fold := by
  refine ⟨merge_zero_left _, ?_⟩
  have := C03_merge_comm (F := F) (h := h) (g := .zero) hfold hl trivial (by simpa [Hist.nums] using hN)
  exact this.trans (merge_zero_left _)

example : (Hist.negate (.add (f64.pow2 0) (.update (f64.pow2 100) .zero))).Legal f64 := by
  refine ⟨?_, trivial⟩; decide +kernel

/-! ### C06 -/

/-- larger bits (sign removed), larger value -/
theorem val_mono [F.OK] {m n : Nat} (h : m ≤ n) : F.val m ≤ F.val n := by
  have ⟨hp, _⟩ := F.facts
  obtain ⟨a, e, h1, h2, h3, _, _, h6⟩ := val_decomp (F := F) m
  obtain ⟨b, f, g1, g2, g3, _, _, g6⟩ := val_decomp (F := F) n
  have hP := pow_pos' (F.p - 1)
  have hpp := two_p (F := F)
  by_cases hm : m < 2 ^ F.p
  · rw [val_small hm]
    by_cases hn : n < 2 ^ F.p
    · rw [val_small hn]; exact h
    · have hq : 2 ≤ n / 2 ^ (F.p - 1) := by rw [Nat.le_div_iff_mul_le hP]; omega
      rcases g3 with g3 | g3
      · omega
      · rw [g1]
        have : 2 ^ (F.p - 1) * 2 ^ 1 ≤ b * 2 ^ f := Nat.mul_le_mul g3 (Nat.pow_le_pow_right (by omega) (by omega))
        omega
  · have hq : m / 2 ^ (F.p - 1) ≤ n / 2 ^ (F.p - 1) := Nat.div_le_div_right h
    have hq2 : 2 ≤ m / 2 ^ (F.p - 1) := by rw [Nat.le_div_iff_mul_le hP]; omega
    unfold val
    rw [if_neg (by omega), if_neg (by omega)]
    rcases Nat.lt_or_eq_of_le hq with hlt | heq
    · have l1 := Nat.mod_lt m hP
      have : (2 ^ (F.p - 1) + m % 2 ^ (F.p - 1)) * 2 ^ (m / 2 ^ (F.p - 1) - 1) ≤
          2 ^ (F.p - 1) * 2 ^ (m / 2 ^ (F.p - 1)) := by
        have : 2 ^ (m / 2 ^ (F.p - 1)) = 2 * 2 ^ (m / 2 ^ (F.p - 1) - 1) := by
          rw [← Nat.pow_succ']; congr 1; omega
        rw [this, ← Nat.mul_assoc]
        exact Nat.mul_le_mul_right _ (by omega)
      refine Nat.le_trans this ?_
      exact Nat.mul_le_mul (by omega) (Nat.pow_le_pow_right (by omega) (by omega))
    · rw [← heq]
      apply Nat.mul_le_mul_right
      have d1 := Nat.div_add_mod m (2 ^ (F.p - 1))
      have d2 := Nat.div_add_mod n (2 ^ (F.p - 1))
      rw [← heq] at d2
      omega

/-- A bound at least as large in magnitude has at most the index (this includes infinite bounds). -/
theorem dindex_bound [F.OK] {x b : Flt} (hx : F.Finite x) (h : x.mag ≤ b.mag) : F.dindex b ≤ F.dindex x := by
  by_cases hb : F.Finite b
  · exact dindex_mono hx hb (val_mono h)
  · have ⟨hp, hW, hWp, _, he, he1, hbi, het, _⟩ := F.facts
    unfold Finite infMag at hb
    have : F.emax ≤ F.expo b := by
      unfold expo; rw [Nat.le_div_iff_mul_le (pow_pos' _)]; omega
    have h0 : F.dindex b = 0 := by
      unfold dindex
      rw [if_neg (by omega)]
      have : F.maxExp + F.bias - F.expo b = 0 := by omega
      rw [this]; simp
    omega

/-- **C06.** Update once with a bound, deposit up to `endurance` numbers not larger than the bound,
renormalise once: same bits as adding each number with the full add operation after the update. -/
theorem C06_protocol [F.OK] {fold : Nat} (hfold : 2 ≤ fold) {h : Hist} (hl : h.Legal F) {b : Flt} {xs : List Flt}
    (hx : ∀ x ∈ xs, F.Finite x ∧ x.mag ≤ b.mag) (hE : xs.length ≤ F.endurance)
    (hN : xs.length + h.nums.length ≤ F.capacity) (hs : xs = [] → h.Settled) :
    F.dmrenorm (F.deposits xs (F.dmdupdate fold b (h.eval F fold))) =
      F.sumSeq fold xs (F.dmdupdate fold b (h.eval F fold)) := by
  have h1 := hist_spec (F := F) hfold (h := .batch b xs h)
    ⟨fun x hxx => ⟨(hx x hxx).1, dindex_bound (hx x hxx).1 (hx x hxx).2⟩, hE, hl⟩
    (by simpa [Hist.nums] using hN) trivial
  have h2 := ofList_spec (F := F) (xs := xs) (h := .update b h) hfold (fun x hxx => (hx x hxx).1) hl hN hs
  have e1 : (Hist.batch b xs h).eval F fold = F.dmrenorm (F.deposits xs (F.dmdupdate fold b (h.eval F fold))) := rfl
  have e2 : (Hist.update b h).eval F fold = F.dmdupdate fold b (h.eval F fold) := rfl
  rw [e1] at h1
  rw [e2] at h2
  rw [h1, h2]
  apply hist_spec_congr
  · rw [ofList_nums]; exact List.Perm.append (List.reverse_perm xs).symm (List.Perm.refl _)
  · rw [ofList_seen]
    show (b :: xs ++ h.seen).Perm (xs.reverse ++ b :: h.seen)
    exact (List.perm_middle.trans (List.Perm.cons _ (List.Perm.append (List.reverse_perm xs) (List.Perm.refl _)))).symm

example : (∀ x ∈ [f64.pow2 3, fneg (f64.pow2 (-60)), zero], f64.Finite x ∧ x.mag ≤ (f64.inf false).mag) ∧
    [f64.pow2 3, fneg (f64.pow2 (-60)), zero].length ≤ f64.endurance := by decide +kernel

/-! ### C07, C08, C09: what the bits look like between and after renormalisations -/

/-- A value in the middle of the protocol: any legal program, an update with a bound, and deposits
within the bound, at most `endurance` of them. -/
structure Open (F : Fmt) (fold : Nat) (h : Hist) (b : Flt) (xs : List Flt) : Prop where
  legal : h.Legal F
  bounded : ∀ x ∈ xs, F.Finite x ∧ x.mag ≤ b.mag
  endurance : xs.length ≤ F.endurance
  capacity : xs.length + h.nums.length ≤ F.capacity

/-- The value reached. -/
def openVal (F : Fmt) (fold : Nat) (h : Hist) (b : Flt) (xs : List Flt) : Binned :=
  F.deposits xs (F.dmdupdate fold b (h.eval F fold))

theorem open_mid [F.OK] {fold : Nat} (hfold : 2 ≤ fold) {h : Hist} {b : Flt} {xs : List Flt} (ho : Open F fold h b xs) :
    F.Mid fold xs.length (xs.length + h.nums.length) (F.minIndex (b :: h.seen)) (F.total (xs ++ h.nums))
      (openVal F fold h b xs) := by
  have ih := hist_mid (F := F) hfold (.update b h) ho.legal (by have := ho.capacity; simp only [Hist.nums]; omega)
  have hm := ih.2.1 (by simp [Hist.seen])
  have hd := Mid.deposits (F := F) hfold xs hm (by have := ho.endurance; omega)
    (fun x hx => ⟨(ho.bounded x hx).1, by
      have := dindex_bound (ho.bounded x hx).1 (ho.bounded x hx).2
      simp only [Hist.seen]; rw [minIndex_cons]; omega⟩)
  have e : (fun j => F.total (Hist.update b h).nums j + F.total xs j) = F.total (xs ++ h.nums) := by
    funext j; rw [total_append]; show F.total h.nums j + _ = _; ring
  rw [e, Nat.zero_add, Nat.add_comm _ xs.length] at hd
  exact hd

theorem Fmt.Mid.pri [F.OK] {fold n N k : Nat} {A : Nat → Int} {y : Binned} (h : F.Mid fold n N k A y) (hn : n ≤ F.endurance)
    {i : Nat} (hi : i < fold) : ∃ b, F.Win b ∧ nth y.pri i = F.mkPri (k + i) b := by
  obtain ⟨B, C, Z, h1, h2, h3, h4, h5, h6⟩ := h
  refine ⟨B (k + i), win_of_bound hn (h3 _), ?_⟩
  rw [h1]; unfold midZ; exact nth_map_range' hi

/-- **C07.** As long as at most `endurance` numbers have been deposited since the last renormalisation,
every primary is finite, has the exponent field of the reference value of its bin, and nothing has
been lost: the value is exactly the sum of the parts of the numbers kept by the bins. -/
theorem C07_endurance [F.OK] {fold : Nat} (hfold : 2 ≤ fold) {h : Hist} {b : Flt} {xs : List Flt}
    (ho : Open F fold h b xs) :
    let k := F.minIndex (b :: h.seen)
    F.dmindex (nth (openVal F fold h b xs).pri 0) = k ∧
    (∀ i, i < fold → F.Finite (nth (openVal F fold h b xs).pri i) ∧
      F.expo (nth (openVal F fold h b xs).pri i) = F.expo (F.bins (k + i))) ∧
    F.exactVal fold (openVal F fold h b xs) =
      sumTo (fun i => F.total (xs ++ h.nums) (k + i) * 2 ^ F.uexp (k + i)) fold := by
  intro k
  have hm := open_mid hfold ho
  refine ⟨hm.index (by omega) ho.endurance, ?_, hm.exactVal (by omega) ho.endurance ho.capacity⟩
  intro i hi
  obtain ⟨c, hw, he⟩ := hm.pri ho.endurance hi
  have w0 : F.Win 0 := by unfold Win; have := ipow_pos (F.p - 2); omega
  rw [he, bins_eq, mkPri_expo hw, mkPri_expo w0]
  exact ⟨mkPri_finite hw, rfl⟩

/-- **C08.** With at most `capacity` numbers, every carry is a finite integer of magnitude at most
`2^(p-1)`, hence exact, and the value is the exact total of the slices (no contribution is lost). -/
theorem C08_capacity [F.OK] {fold : Nat} (hfold : 2 ≤ fold) {h : Hist} (hl : h.Legal F) (hs : h.seen ≠ [])
    (hN : h.nums.length ≤ F.capacity) :
    (∀ i, i < fold → ∃ c : Int, F.Finite (nth (h.eval F fold).car i) ∧
      F.toInt (nth (h.eval F fold).car i) = c * 2 ^ F.eta ∧ c.natAbs ≤ 2 ^ (F.p - 1)) ∧
    F.exactVal fold (h.eval F fold) =
      sumTo (fun i => F.total h.nums (F.minIndex h.seen + i) * 2 ^ F.uexp (F.minIndex h.seen + i)) fold := by
  have hm := (hist_mid (F := F) hfold h hl hN).2.1 hs
  refine ⟨?_, hm.exactVal (by omega) (Nat.zero_le _) hN⟩
  intro i hi
  obtain ⟨B, C, Z, h1, h2, h3, h4, h5, h6⟩ := hm
  have hb := car_of_bound (Nat.zero_le _) hN (h3 (F.minIndex h.seen + i)) (h6 _) (h2 _)
  refine ⟨C (F.minIndex h.seen + i), ?_, ?_, hb⟩
  · rw [h1]; unfold midZ; dsimp only; rw [nth_map_range' hi]
    exact (carF_ok (Nat.le_trans hb pow_p1_le)).1
  · rw [h1]; unfold midZ; dsimp only; rw [nth_map_range' hi]
    exact (carF_ok (Nat.le_trans hb pow_p1_le)).2

/-- The value does not drift: each summand contributes exactly its slices, so the value of a sum is
the sum of the values of its parts (as long as the parts use the same bins). -/
example : (Hist.add (f64.pow2 0) .zero).seen ≠ [] := by simp [Hist.seen]

/-- **C09.** Renormalisation keeps the index and the exact value, puts every primary in
`[1.5, 1.75)` times its binade (i.e. between its reference value `m` and `7/6 m`), and is idempotent. -/
theorem C09_renorm [F.OK] {fold : Nat} (hfold : 2 ≤ fold) {h : Hist} {b : Flt} {xs : List Flt}
    (ho : Open F fold h b xs) :
    let y := openVal F fold h b xs
    F.dmindex (nth (F.dmrenorm y).pri 0) = F.dmindex (nth y.pri 0) ∧
    F.exactVal fold (F.dmrenorm y) = F.exactVal fold y ∧
    (∀ i, i < fold →
      F.toInt (F.bins (F.dmindex (nth y.pri 0) + i)) ≤ F.toInt (nth (F.dmrenorm y).pri i) ∧
      6 * F.toInt (nth (F.dmrenorm y).pri i) < 7 * F.toInt (F.bins (F.dmindex (nth y.pri 0) + i))) ∧
    F.dmrenorm (F.dmrenorm y) = F.dmrenorm y := by
  intro y
  have hm : F.Mid _ _ _ _ _ y := open_mid hfold ho
  have hr := hm.renorm (by omega) ho.endurance ho.capacity
  have hi := hm.index (by omega) ho.endurance
  have hmc : F.Mid fold 0 (xs.length + h.nums.length) (F.minIndex (b :: h.seen)) (F.total (xs ++ h.nums)) (F.dmrenorm y) := by
    rw [hr]
    have hz := hm.zeros
    obtain ⟨_, _, _, _, _, _, _, h5, h6⟩ := hm
    exact mid_canon h5 hz h6
  refine ⟨?_, ?_, ?_, ?_⟩
  · rw [hi]; exact hmc.index (by omega) (Nat.zero_le _)
  · rw [hm.exactVal (by omega) ho.endurance ho.capacity, hmc.exactVal (by omega) (Nat.zero_le _) ho.capacity]
  · intro i hif
    rw [hi, hr]
    unfold canon mid
    dsimp only
    rw [nth_map_range' hif, bins_eq]
    have w0 : F.Win 0 := by unfold Win; have := ipow_pos (F.p - 2); omega
    have hT := ipow_pos (F.p - 3)
    obtain ⟨a, ha⟩ : ∃ a, a = F.total (xs ++ h.nums) (F.minIndex (b :: h.seen) + i) % 2 ^ (F.p - 3) := ⟨_, rfl⟩
    have h1 := Int.emod_nonneg (F.total (xs ++ h.nums) (F.minIndex (b :: h.seen) + i)) (ne_of_gt hT)
    have h2 := Int.emod_lt_of_pos (F.total (xs ++ h.nums) (F.minIndex (b :: h.seen) + i)) hT
    rw [← ha] at h1 h2 ⊢
    have t1 : (2 : Int) ^ (F.p - 2) = 2 * 2 ^ (F.p - 3) := by exact_mod_cast two_p2 (F := F)
    have wa : F.Win a := by unfold Win; omega
    rw [mkPri_toInt w0, mkPri_toInt wa, t1]
    have hU := ipow_pos (F.sexp (F.minIndex (b :: h.seen) + i))
    constructor
    · exact mul_le_mul_of_nonneg_right (by omega) (le_of_lt hU)
    · have := mul_lt_mul_of_pos_right (show 6 * (3 * (2 * 2 ^ (F.p - 3)) + a) < 7 * (3 * (2 * 2 ^ (F.p - 3)) + 0) by omega) hU
      rw [mul_assoc, mul_assoc 7] at this; exact this
  · rw [hmc.renorm (by omega) (Nat.zero_le _) ho.capacity, hr]

example : Open f64 3 (.add (f64.pow2 5) .zero) (f64.pow2 70) [f64.pow2 70, fneg (f64.pow2 69), f64.pow2 (-20)] := by
  refine ⟨⟨by decide +kernel, trivial⟩, by decide +kernel, by decide +kernel, by decide +kernel⟩

/-! ### C10, C11 -/

/-- **C10.** The index brackets the magnitude (`val` is the magnitude in units of `2^-eta`, so
`2^(eta + e)` is the number `2^e`). -/
theorem C10_index_brackets [F.OK] {x : Flt} (hx : F.Finite x) :
    F.dindex x ≤ F.maxIndex ∧
    F.val x.mag < 2 ^ (F.eta + F.maxExp - F.dindex x * F.W) ∧
    (F.dindex x < F.maxIndex → 2 ^ (F.eta + F.maxExp - (F.dindex x + 1) * F.W) ≤ F.val x.mag) := by
  refine ⟨dindex_le_max x, ?_, ?_⟩
  · rw [Nat.mul_comm]; exact dindex_upper hx
  · intro h; rw [Nat.mul_comm]; exact dindex_lower hx h

/-- **C10** (monotone). Larger magnitudes never get a larger index (`y` may be infinite or NaN). -/
theorem C10_index_monotone [F.OK] {x y : Flt} (hx : F.Finite x) (h : x.mag ≤ y.mag) : F.dindex y ≤ F.dindex x :=
  dindex_bound hx h

/-- **C10** (special cases). Zeros get the largest index, infinities and NaN index 0. -/
theorem C10_index_special [F.OK] (x : Flt) :
    (F.val x.mag = 0 → F.dindex x = F.maxIndex) ∧ (¬ F.Finite x → F.dindex x = 0) := by
  constructor
  · intro h
    have h := val_eq_zero.1 h
    unfold dindex expo isZero; rw [h]; simp
  · intro h
    have ⟨hp, hW, hWp, _, he, he1, hbi, het, _⟩ := F.facts
    unfold Finite infMag at h
    have : F.emax ≤ F.expo x := by
      unfold expo; rw [Nat.le_div_iff_mul_le (pow_pos' _)]; omega
    unfold dindex
    rw [if_neg (by omega)]
    have : F.maxExp + F.bias - F.expo x = 0 := by omega
    rw [this]; simp

example : f64.dindex (f64.pow2 0) = 25 ∧ f32.dindex (f32.pow2 (-149)) = 20 ∧ f64.dindex ⟨true, 1⟩ = 51 := by
  decide +kernel

/-- **C11** (reference values). Entry `i` of the bin table is `1.5` times a power of two, its index is
`i` up to the largest index, from which on all entries coincide. -/
theorem C11_bins [F.OK] (i : Nat) :
    (∃ e, F.toInt (F.bins i) = 3 * 2 ^ e) ∧ F.Finite (F.bins i) ∧
    (i ≤ F.maxIndex → F.dmindex (F.bins i) = i) ∧ (F.maxIndex ≤ i → F.bins i = F.bins F.maxIndex) := by
  have w0 : F.Win 0 := by unfold Win; have := ipow_pos (F.p - 2); omega
  refine ⟨⟨F.p - 2 + F.sexp i, ?_⟩, ?_, ?_, ?_⟩
  · rw [bins_eq, mkPri_toInt w0, pow_add]; ring
  · rw [bins_eq]; exact mkPri_finite w0
  · intro h; rw [bins_eq]; exact dmindex_mkPri w0 h
  · intro h
    have ⟨_, _, _, _, _, h6, _⟩ := F.bfacts
    unfold bins
    rw [if_neg (by omega), if_neg (by omega), Nat.min_eq_right h, Nat.min_self]

/-- **C11** (index of a value). A legal program leaves the index of the largest magnitude it has seen
(adding numbers within the bound does not change it), and the quick test for index 0 agrees. -/
theorem C11_index_of_value [F.OK] {fold : Nat} (hfold : 2 ≤ fold) {h : Hist} (hl : h.Legal F) (hs : h.seen ≠ [])
    (hN : h.nums.length ≤ F.capacity) :
    F.dmindex (nth (h.eval F fold).pri 0) = F.minIndex h.seen ∧
    F.dmindex0 (nth (h.eval F fold).pri 0) = decide (F.dmindex (nth (h.eval F fold).pri 0) = 0) := by
  have hm := (hist_mid (F := F) hfold h hl hN).2.1 hs
  have hi := hm.index (by omega) (Nat.zero_le _)
  refine ⟨hi, ?_⟩
  obtain ⟨b, hw, he⟩ := hm.pri (Nat.zero_le _) (show 0 < fold by omega)
  rw [hi, he]
  exact dmindex0_mkPri hw

/-- Adding a number within the bins of a value does not change its index. -/
theorem C11_add_keeps_index [F.OK] {fold : Nat} (hfold : 2 ≤ fold) {h : Hist} (hl : h.Legal F) (hs : h.seen ≠ [])
    {x : Flt} (hx : F.Finite x) (hN : h.nums.length + 1 ≤ F.capacity)
    (hi : F.dmindex (nth (h.eval F fold).pri 0) ≤ F.dindex x) :
    F.dmindex (nth (F.dmdadd fold x (h.eval F fold)).pri 0) = F.dmindex (nth (h.eval F fold).pri 0) := by
  have h1 := (C11_index_of_value (F := F) (fold := fold) (h := .add x h) hfold ⟨hx, hl⟩ (by simp [Hist.seen]) hN).1
  have h2 := (C11_index_of_value (F := F) (fold := fold) hfold hl hs (by omega)).1
  rw [h2] at hi ⊢
  simp only [Hist.eval, Hist.seen] at h1
  rw [h1, minIndex_cons]; omega

/-! ### C12 -/

/-- **C12.** An update keeps the exact value as long as no kept bin is pushed out: the new value is
the old bins seen from the smaller index; the new index is the minimum. -/
theorem C12_update_index [F.OK] {fold : Nat} (hfold : 2 ≤ fold) {h : Hist} (hl : h.Legal F) (hs : h.seen ≠ [])
    (x : Flt) (hN : h.nums.length ≤ F.capacity) :
    let y := h.eval F fold
    let k := F.dmindex (nth y.pri 0)
    F.dmindex (nth (F.dmdupdate fold x y).pri 0) = min k (F.dindex x) ∧
    ∀ i, i + (k - min k (F.dindex x)) < fold →
      nth (F.dmdupdate fold x y).pri (i + (k - min k (F.dindex x))) = nth y.pri i ∧
      nth (F.dmdupdate fold x y).car (i + (k - min k (F.dindex x))) = nth y.car i := by
  intro y k
  have hm := (hist_mid (F := F) hfold h hl hN).2.1 hs
  have hk : k = F.minIndex h.seen := hm.index (by omega) (Nat.zero_le _)
  have hu := hm.update (x := x) (by omega) (Nat.zero_le _)
  refine ⟨?_, ?_⟩
  · rw [hk]; exact hu.index (by omega) (Nat.zero_le _)
  · intro i hi
    obtain ⟨B, C, Z, h1, h2, h3, h4, h5, h6⟩ := hm
    have he := dmdupdate_midZ (F := F) (fold := fold) (C := C) (Z := Z) (x := x) (by omega) h5
      (win_of_bound (Nat.zero_le _) (h3 (F.minIndex h.seen))) h4
    have hy : y = F.midZ fold (F.minIndex h.seen) B C Z := h1
    rw [hk] at hi ⊢
    rw [hy, he]
    have e : min (F.minIndex h.seen) (F.dindex x) + (i + (F.minIndex h.seen - min (F.minIndex h.seen) (F.dindex x)))
        = F.minIndex h.seen + i := by omega
    unfold midZ
    dsimp only
    rw [nth_map_range' hi, nth_map_range' hi, nth_map_range' (by omega), nth_map_range' (by omega), e]
    exact ⟨rfl, rfl⟩

theorem update_twice [F.OK] {fold : Nat} (hfold : 2 ≤ fold) {h : Hist} (hl : h.Legal F)
    (hN : h.nums.length ≤ F.capacity) (x z : Flt) :
    F.dmdupdate fold x (F.dmdupdate fold z (h.eval F fold)) =
      if F.dindex x ≤ F.dindex z then F.dmdupdate fold x (h.eval F fold) else F.dmdupdate fold z (h.eval F fold) := by
  have hm := hist_mid (F := F) hfold h hl hN
  have dx := dindex_le_max (F := F) x
  have dz := dindex_le_max (F := F) z
  by_cases hs : h.seen = []
  · rw [(hm.1 hs).1, dmdupdate_setzero, dmdupdate_setzero, update_canon (by omega) dz (fun _ _ => rfl)]
    split
    · rw [Nat.min_eq_right (by omega)]
    · rw [Nat.min_eq_left (by omega)]
  · obtain ⟨B, C, Z, h1, h2, h3, h4, h5, h6⟩ := hm.2.1 hs
    have hw := fun j => win_of_bound (Nat.zero_le _) (h3 j)
    rw [h1, dmdupdate_midZ (by omega) h5 (hw _) h4, dmdupdate_midZ (by omega) h5 (hw _) h4,
      dmdupdate_midZ (by omega) (by omega) (hw _) (fun j hj => h4 j (by omega))]
    split
    · congr 1; omega
    · congr 1; omega

/-- **C12** (idempotent). -/
theorem C12_update_idem [F.OK] {fold : Nat} (hfold : 2 ≤ fold) {h : Hist} (hl : h.Legal F)
    (hN : h.nums.length ≤ F.capacity) (x : Flt) :
    F.dmdupdate fold x (F.dmdupdate fold x (h.eval F fold)) = F.dmdupdate fold x (h.eval F fold) := by
  rw [update_twice hfold hl hN, if_pos (Nat.le_refl _)]

/-- **C12** (two updates commute). -/
theorem C12_update_comm [F.OK] {fold : Nat} (hfold : 2 ≤ fold) {h : Hist} (hl : h.Legal F)
    (hN : h.nums.length ≤ F.capacity) (x z : Flt) :
    F.dmdupdate fold x (F.dmdupdate fold z (h.eval F fold)) = F.dmdupdate fold z (F.dmdupdate fold x (h.eval F fold)) := by
  rw [update_twice hfold hl hN, update_twice hfold hl hN]
  split
  · split
    · next h1 h2 =>
      have : F.dindex x = F.dindex z := by omega
      unfold dmdupdate; rw [this]
    · rfl
  · split
    · rfl
    · omega

/-- **C12** (position does not matter). An update placed anywhere among additions gives the bits of
doing it first. -/
theorem C12_update_anywhere [F.OK] {fold : Nat} (hfold : 2 ≤ fold) {h : Hist} (hl : h.Legal F) (b : Flt)
    {xs ys : List Flt} (hx : ∀ x ∈ xs ++ ys, F.Finite x) (hN : xs.length + ys.length + h.nums.length ≤ F.capacity)
    (hs : h.Settled) :
    F.sumSeq fold ys (F.dmdupdate fold b (F.sumSeq fold xs (h.eval F fold))) =
      F.sumSeq fold (xs ++ ys) (F.dmdupdate fold b (h.eval F fold)) := by
  have hxx : ∀ x ∈ xs, F.Finite x := fun x h => hx x (List.mem_append_left _ h)
  have hyy : ∀ x ∈ ys, F.Finite x := fun x h => hx x (List.mem_append_right _ h)
  have h1 := ofList_spec (F := F) (xs := ys) (h := .update b (Hist.ofList xs h)) hfold hyy (ofList_legal hxx hl)
    (by simp only [Hist.nums]; rw [ofList_nums, List.length_append, List.length_reverse]; omega)
    (fun _ => ofList_settled _ (fun _ => hs))
  have h2 := ofList_spec (F := F) (xs := xs ++ ys) (h := .update b h) hfold hx hl
    (by simp only [Hist.nums, List.length_append]; omega) (fun _ => hs)
  have e1 : (Hist.update b (Hist.ofList xs h)).eval F fold =
      F.dmdupdate fold b (F.sumSeq fold xs (h.eval F fold)) := by
    rw [← ofList_eval]; rfl
  have e2 : (Hist.update b h).eval F fold = F.dmdupdate fold b (h.eval F fold) := rfl
  rw [e1] at h1; rw [e2] at h2
  rw [h1, h2]
  apply hist_spec_congr
  · rw [ofList_nums, ofList_nums]; simp [Hist.nums, ofList_nums]
  · rw [ofList_seen, ofList_seen]
    simp only [Hist.seen, ofList_seen, List.reverse_append, List.append_assoc]
    exact List.Perm.append (List.Perm.refl _) List.perm_middle.symm

/-! ### C15 (bits) -/

/-- **C15.** Negate, then add anything: the bits of the sum of the negated numbers and the new ones.
`h` is any program; its numbers enter with flipped sign. -/
theorem C15_negate_then_add [F.OK] {fold : Nat} (hfold : 2 ≤ fold) {xs ys : List Flt}
    (hx : ∀ x ∈ xs ++ ys, F.Finite x) (hN : xs.length + ys.length ≤ F.capacity) (hne : ys ≠ []) :
    F.sumSeq fold ys (F.dmnegate fold (F.sumSeq fold xs (dmsetzero fold))) =
      F.sumSeq fold ys (F.sumSeq fold (xs.map fneg) (dmsetzero fold)) := by
  have hxx : ∀ x ∈ xs, F.Finite x := fun x h => hx x (List.mem_append_left _ h)
  have hyy : ∀ x ∈ ys, F.Finite x := fun x h => hx x (List.mem_append_right _ h)
  have hxn : ∀ x ∈ xs.map fneg, F.Finite x := by
    intro x h; obtain ⟨z, hz, rfl⟩ := List.mem_map.1 h; exact hxx z hz
  have h1 := ofList_spec (F := F) (xs := ys) (h := .negate (Hist.ofList xs .zero)) hfold hyy
    (ofList_legal (h := .zero) hxx trivial)
    (by simp only [Hist.nums, ofList_nums, List.append_nil, List.length_map, List.length_reverse]; omega)
    (fun h => absurd h hne)
  have h2 := ofList_spec (F := F) (xs := ys) (h := Hist.ofList (xs.map fneg) .zero) hfold hyy
    (ofList_legal hxn trivial)
    (by simp only [Hist.nums, ofList_nums, List.append_nil, List.length_map, List.length_reverse]; omega)
    (fun h => absurd h hne)
  have e1 : (Hist.negate (Hist.ofList xs .zero)).eval F fold = F.dmnegate fold (F.sumSeq fold xs (dmsetzero fold)) := by
    show F.dmnegate fold _ = _; rw [ofList_eval]; rfl
  have e2 : (Hist.ofList (xs.map fneg) .zero).eval F fold = F.sumSeq fold (xs.map fneg) (dmsetzero fold) := by
    rw [ofList_eval]; rfl
  rw [e1] at h1; rw [e2] at h2
  rw [h1, h2]
  have hn : (Hist.ofList ys (.negate (Hist.ofList xs .zero))).nums = (Hist.ofList ys (Hist.ofList (xs.map fneg) .zero)).nums := by
    simp only [ofList_nums, Hist.nums, List.append_nil, List.map_reverse]
  unfold Hist.spec
  rw [hn]
  simp only [ofList_seen, Hist.seen, List.append_nil]
  rw [if_neg (by simp [hne]), if_neg (by simp [hne])]
  congr 1
  rw [minIndex_append, minIndex_append, ← List.map_reverse, minIndex_map_fneg]

/-- **C15** (merge after negation): for arbitrary programs `h` and `g`. -/
theorem C15_negate_then_merge [F.OK] {fold : Nat} (hfold : 2 ≤ fold) {h g : Hist} (hl : h.Legal F) (gl : g.Legal F)
    (hs : h.seen ≠ []) (gs : g.seen ≠ [])
    (hN : h.nums.length + g.nums.length ≤ F.capacity) :
    F.dmdmadd fold (F.dmnegate fold (h.eval F fold)) (g.eval F fold) =
      F.canon fold (F.minIndex (h.seen ++ g.seen)) (F.total (h.nums.map fneg ++ g.nums)) := by
  have h1 := hist_spec (F := F) hfold (h := .merge (.negate h) g) ⟨hl, gl⟩
    (by simpa [Hist.nums] using hN) ⟨fun e => absurd e hs, fun e => absurd e gs⟩
  have e : (Hist.merge (.negate h) g).eval F fold = F.dmdmadd fold (F.dmnegate fold (h.eval F fold)) (g.eval F fold) := rfl
  rw [← e, h1]
  unfold Hist.spec
  rw [if_neg (by simp [Hist.seen, hs])]
  rfl

/-- **C15** (exact value). Negation negates the represented number. -/
theorem C15_negate_value [F.OK] {fold : Nat} (hfold : 2 ≤ fold) {h : Hist} (hl : h.Legal F)
    (hN : h.nums.length ≤ F.capacity) :
    F.exactVal fold (F.dmnegate fold (h.eval F fold)) = - F.exactVal fold (h.eval F fold) := by
  have hm := hist_mid (F := F) hfold h hl hN
  by_cases hs : h.seen = []
  · rw [(hm.1 hs).1, negate_zero]
    unfold exactVal dmsetzero; dsimp only; rw [nth_setzero]; rfl
  · have h1 := hm.2.1 hs
    rw [(h1.negate hfold (Nat.zero_le _)).exactVal (by omega) (Nat.zero_le _) hN,
      h1.exactVal (by omega) (Nat.zero_le _) hN, ← sumTo_neg]
    apply sumTo_congr; intro i _; ring

/-- **C15** (involution). Negating twice restores every bit. -/
theorem C15_negate_twice [F.OK] {fold : Nat} (hfold : 2 ≤ fold) {h : Hist} (hl : h.Legal F)
    (hN : h.nums.length ≤ F.capacity) :
    F.dmnegate fold (F.dmnegate fold (h.eval F fold)) = h.eval F fold := by
  have hm := hist_mid (F := F) hfold h hl hN
  by_cases hs : h.seen = []
  · rw [(hm.1 hs).1, negate_zero, negate_zero]
  · obtain ⟨B, C, Z, h1, h2, h3, h4, h5, h6⟩ := hm.2.1 hs
    have hw := fun j => win_of_bound (Nat.zero_le _) (h3 j)
    have hwn : ∀ j, F.Win (- B j) := by intro j; have := hw j; unfold Win at *; omega
    rw [h1]
    generalize F.minIndex h.seen = k at *
    have key : ∀ B' : Nat → Int, ∀ c : Nat → Flt, (∀ j, F.Win (B' j)) →
        F.dmnegate fold ⟨(List.range' k fold).map (fun j => F.mkPri j (B' j)), (List.range' k fold).map c⟩ =
        ⟨(List.range' k fold).map (fun j => F.mkPri j (- B' j)), (List.range' k fold).map (fun j => fneg (c j))⟩ := by
      intro B' c hB'
      unfold dmnegate
      dsimp only
      rw [nth_map_range' (i := 0) (by omega), mkPri_isZero (hB' _), dmindex_mkPri (hB' _) (by omega)]
      simp only [Bool.false_eq_true, if_false]
      rw [← range_map_shift (k := k) (f := fun j => F.mkPri j (- B' j)),
        ← range_map_shift (k := k) (f := fun j => fneg (c j))]
      congr 1
      · apply List.map_congr_left
        intro i hi
        rw [List.mem_range] at hi
        rw [nth_map_range' hi]
        exact sub_offset (hB' _)
      · apply List.map_congr_left
        intro i hi
        rw [List.mem_range] at hi
        rw [nth_map_range' hi]
    unfold midZ
    rw [key B _ hw, key (fun j => - B j) _ hwn]
    congr 1
    · simp
    · apply List.map_congr_left
      intro j _
      show fneg (fneg _) = _
      unfold fneg; simp

example : fneg (f64.pow2 3) ∈ [f64.pow2 3].map fneg ∧ f64.Finite (fneg (f64.pow2 3)) := by decide +kernel

/-! ### C16, C41: how far the represented value is from the exact sum -/

theorem mem_minIndex {x : Flt} {xs : List Flt} (h : x ∈ xs) : F.minIndex xs ≤ F.dindex x := minIndex_le_mem h

theorem sumSeq_mid [F.OK] {fold : Nat} (hfold : 2 ≤ fold) {xs : List Flt} (hne : xs ≠ [])
    (hx : ∀ x ∈ xs, F.Finite x) (hN : xs.length ≤ F.capacity) :
    F.Mid fold 0 xs.length (F.minIndex xs) (F.total xs) (F.sumSeq fold xs (dmsetzero fold)) := by
  rw [C01_sum_is_spec hfold hx hN]
  unfold specSum
  rw [if_neg hne]
  exact mid_canon (minIndex_le _) (total_zero_below hx (Nat.le_refl _)) (total_natAbs hx)

/-- **C16** (absolute form). The exact value of the binned sum misses the exact sum of the numbers by
at most half a unit of the last accumulator's bin per number; bin `j` has unit
`2^(MAX_EXP - W + 1 - W*min(j, maxIndex))` (times `2^eta` here). -/
theorem C16_error_unit [F.OK] {fold : Nat} (hfold : 2 ≤ fold) {xs : List Flt} (hne : xs ≠ [])
    (hx : ∀ x ∈ xs, F.Finite x) (hN : xs.length ≤ F.capacity) :
    2 * ((F.exactSum xs - F.exactVal fold (F.sumSeq fold xs (dmsetzero fold))).natAbs : Int) ≤
      xs.length * 2 ^ (F.eta + F.maxExp + 1 - F.W - F.W * min (F.minIndex xs + fold - 1) F.maxIndex) := by
  rw [(sumSeq_mid hfold hne hx hN).exactVal (by omega) (Nat.zero_le _) hN]
  exact totals_err (by omega) (fun x h => ⟨hx x h, minIndex_le_mem h⟩)

theorem exists_minIndex {xs : List Flt} (h : F.minIndex xs < F.maxIndex) : ∃ x ∈ xs, F.dindex x = F.minIndex xs := by
  induction xs with
  | nil => exact absurd h (Nat.lt_irrefl _)
  | cons x xs ih =>
    rw [minIndex_cons] at h ⊢
    by_cases hc : F.dindex x ≤ F.minIndex xs
    · exact ⟨x, List.mem_cons_self, by omega⟩
    · obtain ⟨y, hy, he⟩ := ih (by omega)
      exact ⟨y, List.mem_cons_of_mem _ hy, by omega⟩

/-- **C16** (relative form). When the accumulators do not reach below the smallest bin, the error is at
most `N * 2^(W*(1-fold)) * max|x|`. -/
theorem C16_error_relative [F.OK] {fold : Nat} (hfold : 2 ≤ fold) {xs : List Flt} (hne : xs ≠ [])
    (hx : ∀ x ∈ xs, F.Finite x) (hN : xs.length ≤ F.capacity)
    (hbig : F.minIndex xs + fold - 1 ≤ F.maxIndex) :
    ∃ m ∈ xs, (∀ x ∈ xs, F.val x.mag ≤ F.val m.mag) ∧
    ((F.exactSum xs - F.exactVal fold (F.sumSeq fold xs (dmsetzero fold))).natAbs : Int) * 2 ^ (F.W * (fold - 1)) ≤
      xs.length * F.val m.mag := by
  have ⟨h1, h2, h3, h4, h5, h6, h7, _⟩ := F.bfacts
  have ⟨hp, hW, hWp, _⟩ := F.facts
  -- a number of largest magnitude
  obtain ⟨m, hm, hmax⟩ : ∃ m ∈ xs, ∀ x ∈ xs, F.val x.mag ≤ F.val m.mag := by
    clear hN hbig hx
    induction xs with
    | nil => exact absurd rfl hne
    | cons x xs ih =>
      by_cases h0 : xs = []
      · subst h0; exact ⟨x, List.mem_cons_self, by simp⟩
      · obtain ⟨m, hm, hmax⟩ := ih h0
        by_cases hc : F.val x.mag ≤ F.val m.mag
        · exact ⟨m, List.mem_cons_of_mem _ hm, by
            intro y hy; rcases List.mem_cons.1 hy with rfl | hy
            · exact hc
            · exact hmax y hy⟩
        · exact ⟨x, List.mem_cons_self, by
            intro y hy; rcases List.mem_cons.1 hy with rfl | hy
            · exact Nat.le_refl _
            · have := hmax y hy; omega⟩
  refine ⟨m, hm, hmax, ?_⟩
  have he := C16_error_unit hfold hne hx hN
  obtain ⟨z, hz, hzi⟩ := exists_minIndex (F := F) (xs := xs) (by omega)
  have hlow := dindex_lower (F := F) (hx z hz) (by omega)
  rw [hzi] at hlow
  have hzm := hmax z hz
  rw [Nat.min_eq_left hbig] at he
  have hk : F.W * (F.minIndex xs + fold - 1) ≤ F.W * F.maxIndex := Nat.mul_le_mul_left _ hbig
  have hs : F.W * (F.minIndex xs + fold - 1) = F.W * F.minIndex xs + F.W * (fold - 1) := by
    rw [← Nat.mul_add]; congr 1; omega
  have hs2 : F.W * (F.minIndex xs + 1) = F.W * F.minIndex xs + F.W := by ring
  generalize hE : (F.exactSum xs - F.exactVal fold (F.sumSeq fold xs (dmsetzero fold))).natAbs = E at *
  have e1 : F.eta + F.maxExp - F.W * (F.minIndex xs + 1) + 1 =
      (F.eta + F.maxExp + 1 - F.W - F.W * (F.minIndex xs + fold - 1)) + F.W * (fold - 1) := by omega
  have he' : 2 * E ≤ xs.length * 2 ^ (F.eta + F.maxExp + 1 - F.W - F.W * (F.minIndex xs + fold - 1)) := by
    exact_mod_cast he
  have key : 2 * (E * 2 ^ (F.W * (fold - 1))) ≤ xs.length * (2 * F.val m.mag) := by
    calc 2 * (E * 2 ^ (F.W * (fold - 1))) = (2 * E) * 2 ^ (F.W * (fold - 1)) := by ring
      _ ≤ (xs.length * 2 ^ (F.eta + F.maxExp + 1 - F.W - F.W * (F.minIndex xs + fold - 1))) * 2 ^ (F.W * (fold - 1)) :=
          Nat.mul_le_mul_right _ he'
      _ = xs.length * 2 ^ (F.eta + F.maxExp - F.W * (F.minIndex xs + 1) + 1) := by rw [e1, pow_add]; ring
      _ = xs.length * (2 * 2 ^ (F.eta + F.maxExp - F.W * (F.minIndex xs + 1))) := by rw [pow_succ]; ring
      _ ≤ xs.length * (2 * F.val m.mag) := by
          apply Nat.mul_le_mul_left; omega
  have : E * 2 ^ (F.W * (fold - 1)) ≤ xs.length * F.val m.mag := by
    have : xs.length * (2 * F.val m.mag) = 2 * (xs.length * F.val m.mag) := by ring
    omega
  exact_mod_cast this

/-- **C41.** If every number is a multiple of the unit of the last accumulator's bin, the represented
value is exactly the sum. -/
theorem C41_exact [F.OK] {fold : Nat} (hfold : 2 ≤ fold) {xs : List Flt} (hne : xs ≠ [])
    (hx : ∀ x ∈ xs, F.Finite x) (hN : xs.length ≤ F.capacity)
    (hd : ∀ x ∈ xs, (2 ^ (F.eta + F.maxExp + 1 - F.W - F.W * min (F.minIndex xs + fold - 1) F.maxIndex) : Int) ∣ F.toInt x) :
    F.exactVal fold (F.sumSeq fold xs (dmsetzero fold)) = F.exactSum xs := by
  rw [(sumSeq_mid hfold hne hx hN).exactVal (by omega) (Nat.zero_le _) hN]
  have h := totals_loss (F := F) (k := F.minIndex xs) (n := fold) (xs := xs) (fun x h => ⟨hx x h, minIndex_le_mem h⟩)
  have hz : (xs.map (fun x => F.resid (F.toInt x) (F.minIndex xs + fold))).sum = 0 := by
    have hall : ∀ l : List Int, (∀ a ∈ l, a = 0) → l.sum = 0 := by
      intro l hl
      induction l with
      | nil => rfl
      | cons a l ih => rw [List.sum_cons, hl a List.mem_cons_self, ih (fun b hb => hl b (List.mem_cons_of_mem _ hb))]; rfl
    apply hall
    intro a ha
    obtain ⟨x, hxm, rfl⟩ := List.mem_map.1 ha
    have := resid_zero_of_dvd (F := F) (r := F.toInt x) (j := F.minIndex xs + fold - 1) (hd x hxm)
    have e : F.minIndex xs + fold - 1 + 1 = F.minIndex xs + fold := by omega
    rw [e] at this; exact this
  rw [hz] at h; omega

/-- Integers of moderate size: fold 2 already gives exact sums of multiples of 2^-30 below 2^23. -/
example : (∀ x ∈ [f64.pow2 22, fneg (f64.pow2 (-30)), f64.pow2 0],
    (2 ^ (f64.eta + f64.maxExp + 1 - f64.W - f64.W * min (f64.minIndex [f64.pow2 22, fneg (f64.pow2 (-30)), f64.pow2 0] + 2 - 1) f64.maxIndex) : Int) ∣ f64.toInt x) := by
  decide +kernel

end Repro

import Verif.Int32Vec
import Verif.GemmLemmas
/-!
# The checked matrix products do what the unchecked ones do, if the arrays have at most 2147483647 words
-/

namespace Repro

/-- An array of `R` rows of `L` elements of `w` words, with leading dimension `ld`, has at most 2147483647 words. -/
def Arr (w R : Nat) (ld : Int) (L : Nat) : Prop := (w : Int) * (((R - 1 : Nat) : Int) * |ld| + L) ≤ 2147483647

/-- What the matrix routines need of the element type: the checked dot product is the unchecked one on vectors that are not too long. -/
structure COps.Good {α : Type} (O : COps α) : Prop where
  w : O.w = 1 ∨ O.w = 2
  bw : 1 ≤ O.bw
  wbw : O.w ≤ O.bw
  dot : ∀ {n : Nat} {X incX Z incZ y : Int} {m : Mem}, n ≤ 2147483647 → Reach O.w incX n → Reach O.w incZ n → O.dotC n X incX Z incZ y m = some (O.dot n X incX Z incZ y m)

theorem realOpsC_good {F : Fmt} (hF : F = f64 ∨ F = f32) {T : Tune} (hT : T.OK F) (hs : T.Small) (expand : Bool) {fold : Nat} (hf : 1 ≤ fold) (jA jD : Junk) :
    (realOpsC F T expand fold jA jD).Good where
  w := Or.inl rfl
  bw := by show 1 ≤ 2 * fold; omega
  wbw := by show 1 ≤ 2 * fold; omega
  dot hn hX hZ := Fmt.rvecC_eq hF hT hs .dot expand fold _ _ _ hn hX (fun _ => hZ) _

theorem cplxOpsC_good {F : Fmt} (hF : F = f64 ∨ F = f32) {T : Tune} (hT : T.OK F) (hs : T.Small) (expand : Bool) {fold : Nat} (hf : 1 ≤ fold) (jA jD : Junk) (conj : Bool) :
    (cplxOpsC F T expand fold jA jD conj).Good where
  w := Or.inr rfl
  bw := by show 1 ≤ 4 * fold; omega
  wbw := by show 2 ≤ 4 * fold; omega
  dot hn hX hZ := Fmt.zvecC_eq hF hT hs _ expand fold _ _ _ hn hX (fun _ => hZ) _

/-! ### the index expressions -/

theorem row_abs {ld : Int} {a R : Nat} (ha : a < R) : |(a : Int) * ld| ≤ ((R - 1 : Nat) : Int) * |ld| := by
  rw [abs_mul, Nat.abs_cast]
  exact mul_le_mul_of_nonneg_right (by exact_mod_cast (by omega : a ≤ R - 1)) (abs_nonneg _)

section
variable {α : Type} {O : COps α}

theorem subE_fit (hO : O.Good) {R L a b : Nat} {ld : Int} (h : Arr O.w R ld L) (ha : a < R) (hb : b < L) : ∀ z ∈ subE O a ld b, InInt z := by
  have h1 := abs_le.1 (row_abs (ld := ld) ha)
  unfold Arr at h
  intro z hz
  unfold subE at hz
  generalize (a : Int) * ld = u at *
  generalize ((R - 1 : Nat) : Int) * |ld| = v at *
  rcases hO.w with hw | hw <;> rw [hw] at h hz
  · rw [if_pos rfl] at hz
    simp only [List.mem_cons, List.not_mem_nil, or_false] at hz
    unfold InInt
    rcases hz with rfl | rfl <;> omega
  · rw [if_neg (by omega)] at hz
    simp only [List.mem_cons, List.not_mem_nil, or_false] at hz
    unfold InInt
    rcases hz with rfl | rfl | rfl | rfl <;> omega

theorem rowE_fit (hO : O.Good) {R L a b : Nat} {ld : Int} (h : Arr O.w R ld L) (ha : a < R) (hb : b < L) : ∀ z ∈ rowE O a ld b, InInt z := by
  intro z hz
  apply subE_fit hO h ha hb
  unfold rowE at hz
  unfold subE
  by_cases hw : O.w = 1
  · rw [if_pos hw] at hz ⊢
    simp only [List.mem_cons, List.not_mem_nil, or_false] at hz ⊢; exact Or.inl hz
  · rw [if_neg hw] at hz ⊢
    simp only [List.mem_cons, List.not_mem_nil, or_false] at hz ⊢
    tauto

theorem elE_fit (hO : O.Good) {j n : Nat} {inc : Int} (h : Reach O.w inc n) (h1 : Reach O.w 1 n) (hj : j < n) : ∀ z ∈ elE O j inc, InInt z := by
  have h := h.mono (show j + 1 ≤ n by omega)
  unfold Reach at h h1
  intro z hz
  unfold elE at hz
  rw [show |(1 : Int)| = 1 from rfl] at h1
  rcases hO.w with hw | hw <;> rw [hw] at h h1 hz
  · rw [if_pos rfl] at hz
    rw [List.mem_singleton] at hz
    subst hz
    apply inInt_of_abs
    rw [abs_mul, Nat.abs_cast]
    push_cast at h
    nlinarith [abs_nonneg inc]
  · rw [if_neg (by omega)] at hz
    have e : |2 * (j : Int) * inc| = 2 * |inc| * j := by rw [abs_mul, abs_mul, Nat.abs_cast]; rw [show |(2 : Int)| = 2 from rfl]; ring
    simp only [List.mem_cons, List.not_mem_nil, or_false] at hz
    rcases hz with rfl | rfl | rfl
    · unfold InInt; omega
    all_goals
      by_cases h0 : inc = 0
      · subst h0; rw [mul_zero]; decide
      have : 1 ≤ |inc| := Int.one_le_abs h0
      have h4 : (2 : Int) * |inc| * (j : Int) + 2 ≤ 2147483647 := by push_cast at h ⊢; nlinarith
      rw [← e] at h4
      have := abs_le.1 (show |2 * (j : Int) * inc| ≤ 2147483645 by omega)
      unfold InInt
      omega

theorem vecE_fit (hO : O.Good) {j n : Nat} {inc : Int} (h : Reach O.w inc n) (h1 : Reach O.w 1 n) (hj : j < n) : ∀ z ∈ vecE O j inc, InInt z := by
  intro z hz
  apply elE_fit hO h h1 hj
  unfold vecE at hz
  unfold elE
  by_cases hw : O.w = 1
  · rw [if_pos hw] at hz ⊢; exact hz
  · rw [if_neg hw] at hz ⊢
    simp only [List.mem_cons, List.not_mem_nil, or_false] at hz ⊢
    tauto

theorem allocE_fit (hO : O.Good) {a b : Nat} (h : (O.w : Int) * (a * b) ≤ 2147483647) : ∀ z ∈ allocE O a b, InInt z := by
  intro z hz
  unfold allocE at hz
  have h0 : (0 : Int) ≤ (a : Int) * b := by positivity
  generalize (a : Int) * b = u at *
  rcases hO.w with hw | hw <;> rw [hw] at h hz
  · rw [if_pos rfl, List.mem_singleton] at hz
    subst hz; unfold InInt; omega
  · rw [if_neg (by omega)] at hz
    simp only [List.mem_cons, List.not_mem_nil, or_false] at hz
    unfold InInt
    rcases hz with rfl | rfl <;> omega

theorem tile_arr {xt yt : Nat} (h : (O.w : Int) * (xt * yt) ≤ 2147483647) (hy : 1 ≤ yt) : Arr O.w yt xt xt := by
  unfold Arr
  rw [Nat.abs_cast, show (((yt - 1 : Nat) : Int) * xt + xt) = xt * yt by rw [Nat.cast_sub hy]; push_cast; ring]
  exact h

theorem tileS_fit (hO : O.Good) {xt yt i ii j jj : Nat} (h : (O.w : Int) * (xt * yt) ≤ 2147483647) (hi : i ≤ ii) (hi' : ii < i + yt) (hj : j ≤ jj) (hj' : jj < j + xt)
    (hb : ii ≤ 2147483647) (hb' : jj ≤ 2147483647) : ∀ z ∈ tileS O ((ii : Int) - i) xt ((jj : Int) - j), InInt z := by
  intro z hz
  unfold tileS at hz
  rw [show ((ii : Int) - i) = ((ii - i : Nat) : Int) by omega, show ((jj : Int) - j) = ((jj - j : Nat) : Int) by omega] at hz
  rcases List.mem_append.1 hz with hz | hz
  · simp only [List.mem_cons, List.not_mem_nil, or_false] at hz
    unfold InInt
    rcases hz with rfl | rfl <;> omega
  · exact subE_fit hO (tile_arr h (by omega)) (by omega) (by omega) z hz

theorem tileE_fit (hO : O.Good) {xt yt i ii : Nat} (h : (O.w : Int) * (xt * yt) ≤ 2147483647) (hi : i ≤ ii) (hi' : ii < i + yt) (hx : 1 ≤ xt) : ∀ z ∈ tileE O ((ii : Int) - i) xt, InInt z := by
  intro z hz
  unfold tileE at hz
  rw [show ((ii : Int) - i) = ((ii - i : Nat) : Int) by omega] at hz
  have h2 : ((ii - i : Nat) : Int) * xt ≤ xt * yt := by rw [mul_comm]; exact mul_le_mul_of_nonneg_left (by omega) (by positivity)
  have h3 : (0 : Int) ≤ ((ii - i : Nat) : Int) * xt := by positivity
  have h4 : ((ii - i : Nat) : Int) ≤ ((ii - i : Nat) : Int) * xt := by
    have : (1 : Int) ≤ xt := by exact_mod_cast hx
    nlinarith
  rcases hO.w with hw | hw <;> rw [hw] at h hz
  · rw [if_pos rfl] at hz
    simp only [List.mem_cons, List.not_mem_nil, or_false] at hz
    unfold InInt
    rcases hz with rfl | rfl <;> omega
  · rw [if_neg (by omega)] at hz
    simp only [List.mem_cons, List.not_mem_nil, or_false] at hz
    unfold InInt
    rcases hz with rfl | rfl | rfl
    · omega
    · omega
    · rw [mul_assoc]; omega

theorem outE_fit (hO : O.Good) {ii n : Nat} {inc : Int} (h : Reach O.bw inc n) (hb : (O.bw : Int) ≤ 2147483647) (hi : ii < n) : ∀ z ∈ outE O ii inc, InInt z := by
  have h := h.mono (show ii ≤ n by omega)
  unfold Reach at h
  have e : |(ii : Int) * inc * O.bw| = O.bw * |inc| * ii := by rw [abs_mul, abs_mul, Nat.abs_cast, Nat.abs_cast]; ring
  have e2 : |(ii : Int) * inc| ≤ O.bw * |inc| * ii := by
    rw [abs_mul, Nat.abs_cast]
    have : (1 : Int) ≤ O.bw := by exact_mod_cast hO.bw
    have h3 : 0 ≤ |inc| * (ii : Int) := by positivity
    nlinarith
  intro z hz
  simp only [outE, List.mem_cons, List.not_mem_nil, or_false] at hz
  rcases hz with rfl | rfl | rfl
  · unfold InInt; omega
  · exact inInt_of_abs (by omega)
  · exact inInt_of_abs (by omega)

theorem entE_fit (hO : O.Good) {R L a b : Nat} {ld : Int} (h : Arr O.bw R ld L) (ha : a < R) (hb : b < L) : ∀ z ∈ entE O a ld b, InInt z := by
  have h1 := row_abs (ld := ld) ha
  have hw : (1 : Int) ≤ O.bw := by exact_mod_cast hO.bw
  unfold Arr at h
  have h0 : 0 ≤ ((R - 1 : Nat) : Int) * |ld| := by positivity
  generalize hS : ((R - 1 : Nat) : Int) * |ld| + L = S at h
  have hS1 : (1 : Int) ≤ S := by omega
  have h2 : |(a : Int) * ld + b| ≤ S := by rw [abs_le] at h1 ⊢; omega
  have h3 : |((a : Int) * ld + b) * O.bw| ≤ O.bw * S := by
    rw [abs_mul, Nat.abs_cast, mul_comm]; exact mul_le_mul_of_nonneg_left h2 (by omega)
  have h4 : S ≤ O.bw * S := by nlinarith
  have h5 : (O.bw : Int) ≤ O.bw * S := by nlinarith
  intro z hz
  simp only [entE, List.mem_cons, List.not_mem_nil, or_false] at hz
  rcases hz with rfl | rfl | rfl | rfl
  · unfold InInt; omega
  · exact inInt_of_abs (by omega)
  · exact inInt_of_abs (by omega)
  · exact inInt_of_abs (by omega)

/-! ### matrix-vector products -/

/-- The loops over `d` rows or columns in steps of a block size end before the counter overflows. -/
structure GemvB.Fit (b : GemvB) (d : Nat) : Prop where
  y : (d : Int) + b.y ≤ 2147483648
  x : (d : Int) + b.x ≤ 2147483648
  yt : (d : Int) + b.yt ≤ 2147483648
  xt : (d : Int) + b.xt ≤ 2147483648
  t : (d : Int) + b.t ≤ 2147483648

theorem scaleXC_eq (hO : O.Good) (unit : Bool) (scl : α → α) {n : Nat} {X incX : Int} (bufX : Int) (hn : (n : Int) ≤ 2147483647) (h : Reach O.w incX n) (h1 : Reach O.w 1 n) (m : Mem) :
    scaleXC O unit scl n X incX bufX m = some (scaleXM O.toMOps unit scl n X incX bufX m) := by
  unfold scaleXC scaleXM
  cases unit
  swap
  · rfl
  rw [if_neg Bool.false_ne_true, if_neg Bool.false_ne_true]
  have h1' : O.w = 1 ∨ (n : Int) * 2 ≤ 2147483647 := by
    unfold Reach at h1
    rw [show |(1 : Int)| = 1 from rfl] at h1
    rcases hO.w with hw | hw
    · exact Or.inl hw
    · rw [hw] at h1; right; omega
  rw [chk_pos (by
    intro z hz
    split at hz
    · simp at hz
    · rw [List.mem_singleton] at hz; subst hz; unfold InInt; omega),
    for1_eq (g := fun (j : Nat) m => O.put m (bufX + O.w * j) (scl (O.get m (X + O.w * (j * incX))))) (by omega) (by omega)]
  · rfl
  · intro j m hj
    apply chk_pos
    intro z hz
    rcases List.mem_append.1 hz with hz | hz
    · split at hz
      · simp at hz
      · simp only [List.mem_cons, List.not_mem_nil, or_false] at hz
        unfold InInt
        rcases hz with rfl | rfl <;> omega
    · exact elE_fit hO h h1 hj z hz

theorem Reach.one_of {w : Nat} {R L n : Nat} {ld : Int} (h : Arr w R ld L) (hn : n ≤ L) : Reach w 1 n := by
  unfold Reach
  unfold Arr at h
  rw [show |(1 : Int)| = 1 from rfl, mul_one]
  have h0 : 0 ≤ ((R - 1 : Nat) : Int) * |ld| := by positivity
  have : (w : Int) * n ≤ w * (((R - 1 : Nat) : Int) * |ld| + L) := mul_le_mul_of_nonneg_left (by omega) (by positivity)
  omega

theorem gemvNC_eq (hO : O.Good) {b : GemvB} (hb : b.OK) {M N : Nat} (hM : b.Fit M) (hN : b.Fit N) {A lda bufX incbufX Y incY : Int} (hA : Arr O.w M lda N) (hX : Reach O.w incbufX N)
    (hY : Reach O.bw incY M) (hbw : (O.bw : Int) ≤ 2147483647) (m : Mem) :
    gemvNC O b M N A lda bufX incbufX Y incY m = some (gemvNM O.toMOps b M N A lda bufX incbufX Y incY m) := by
  have hy : 1 ≤ b.y := pos_of_pow hb.y
  have hx : 1 ≤ b.x := pos_of_pow hb.x
  have hN' := hN.x
  refine for1_eq hy hM.y (fun i m hi => for1_eq hx hN.x (fun j m hj => for2_eq (by omega) (by have := hM.y; omega) hM.y (fun ii m h1 h2 h3 => ?_) m) m) m
  have h1n : Reach O.w 1 N := Reach.one_of hA (le_refl _)
  rw [chk_pos, hO.dot (by omega) (h1n.mono (by omega)) (hX.mono (by omega))]
  intro z hz
  simp only [List.mem_append, List.mem_singleton] at hz
  rcases hz with ((rfl | hz) | hz) | hz
  · unfold InInt; omega
  · exact rowE_fit hO hA h2 hj z hz
  · exact vecE_fit hO hX h1n hj z hz
  · exact outE_fit hO hY hbw h2 z hz

theorem packTC_eq (hO : O.Good) {b : GemvB} (hb : b.OK) {M N i j : Nat} (hM : b.Fit M) (hN : b.Fit N) {A lda bufA : Int} (hA : Arr O.w M lda N) (hT : (O.w : Int) * (b.xt * b.yt) ≤ 2147483647) (m : Mem) :
    packTC O b M N i j A lda bufA m = some (packTM O.toMOps b M N i j A lda bufA m) := by
  have ht : 1 ≤ b.t := pos_of_pow hb.t
  have hMx := hM.xt
  have hNy := hN.yt
  have hxt : 1 ≤ b.xt := pos_of_pow hb.xt
  have hyt : 1 ≤ b.yt := pos_of_pow hb.yt
  refine for2_eq' ht hM.t hM.xt (fun jj m a1 a2 a3 a4 => for2_eq' ht hN.t hN.yt (fun ii m b1 b2 b3 b4 =>
    for2_eq (by omega) (by omega) (by omega) (fun jjj m c1 c2 c3 => for2_eq (by omega) (by omega) (by omega) (fun iii m d1 d2 d3 => ?_) m) m) m) m
  have hj : jjj < j + b.xt := by
    obtain ⟨k, hk⟩ := a4
    have := tile_in hb.t hb.xt (a := k) (v := jjj - jj) (by rw [mul_comm]; omega) (by omega)
    rw [mul_comm] at this; omega
  have hi : iii < i + b.yt := by
    obtain ⟨k, hk⟩ := b4
    have := tile_in hb.t hb.yt (a := k) (v := iii - ii) (by rw [mul_comm]; omega) (by omega)
    rw [mul_comm] at this; omega
  apply chk_pos
  intro z hz
  rcases List.mem_append.1 hz with hz | hz
  · exact tileS_fit hO hT (by omega) (by omega) (by omega) (by omega) (by omega) (by omega) z hz
  · exact subE_fit hO hA c2 d2 z hz

theorem gemvTC_eq (hO : O.Good) {b : GemvB} (hb : b.OK) {M N : Nat} (hM : b.Fit M) (hN : b.Fit N) {A lda bufX incbufX Y incY bufA : Int} (hA : Arr O.w M lda N) (hX : Reach O.w incbufX M)
    (hX1 : Reach O.w 1 M) (hT : (O.w : Int) * (b.xt * b.yt) ≤ 2147483647) (hY : Reach O.bw incY N) (hbw : (O.bw : Int) ≤ 2147483647) (m : Mem) :
    gemvTC O b M N A lda bufX incbufX Y incY bufA m = some (gemvTM O.toMOps b M N A lda bufX incbufX Y incY bufA m) := by
  have hMx := hM.xt
  have hNy := hN.yt
  have hxt : 1 ≤ b.xt := pos_of_pow hb.xt
  have hyt : 1 ≤ b.yt := pos_of_pow hb.yt
  unfold gemvTC
  rw [chk_pos (allocE_fit hO hT)]
  refine for1_eq hyt hN.yt (fun i m hi => for1_eq hxt hM.xt (fun j m hj => ?_) m) m
  rw [packTC_eq hO hb hM hN hA hT, Option.bind_some]
  refine for2_eq (by omega) (by omega) hN.yt (fun ii m h1 h2 h3 => ?_) _
  rw [chk_pos, hO.dot (by omega) (hX1.mono (by omega)) (hX.mono (by omega))]
  intro z hz
  simp only [List.mem_append, List.mem_singleton] at hz
  rcases hz with ((rfl | hz) | hz) | hz
  · unfold InInt; omega
  · exact tileE_fit hO hT h1 h3 hxt z hz
  · exact vecE_fit hO hX hX1 hj z hz
  · exact outE_fit hO hY hbw h2 z hz

/-- The arrays of a matrix-vector product are not too large: matrix, vector and result have at most 2147483647 words each (counting the gaps between strided elements), the vector without its gaps, too,
a tile has at most 2147483647 words and the loop counters do not pass 2147483647 when the last block is left. -/
structure GemvFits (w bw : Nat) (b : GemvB) (row noTrans : Bool) (M N : Nat) (lda incX incY : Int) : Prop where
  blkM : b.Fit M
  blkN : b.Fit N
  tile : (w : Int) * (b.xt * b.yt) ≤ 2147483647
  mat : Arr w (if row then M else N) lda (if row then N else M)
  vec : Reach w incX (if noTrans then N else M)
  vec1 : Reach w 1 (if noTrans then N else M)
  out : Reach bw incY (if noTrans then M else N)
  bin : (bw : Int) ≤ 2147483647

theorem scaled_reach {unit : Bool} {scl : α → α} {n : Nat} {X incX bufX : Int} {m : Mem} (h : Reach O.w incX n) (h1 : Reach O.w 1 n) : Reach O.w (scaleXM O.toMOps unit scl n X incX bufX m).2.1 n := by
  unfold scaleXM; split
  · exact h
  · exact h1

theorem gemvNC_full (hO : O.Good) (unit : Bool) (scl : α → α) {b : GemvB} (hb : b.OK) {M N : Nat} (hM : b.Fit M) (hN : b.Fit N) {A lda X incX Y incY bufX : Int} (hA : Arr O.w M lda N) (hX : Reach O.w incX N)
    (hX1 : Reach O.w 1 N) (hY : Reach O.bw incY M) (hbw : (O.bw : Int) ≤ 2147483647) (m : Mem) :
    ((scaleXC O unit scl N X incX bufX m).bind fun s => gemvNC O b M N A lda s.1 s.2.1 Y incY s.2.2) =
      some (gemvNM O.toMOps b M N A lda (scaleXM O.toMOps unit scl N X incX bufX m).1 (scaleXM O.toMOps unit scl N X incX bufX m).2.1 Y incY (scaleXM O.toMOps unit scl N X incX bufX m).2.2) := by
  have hx : 1 ≤ b.x := pos_of_pow hb.x
  have := hN.x
  rw [scaleXC_eq hO unit scl bufX (by omega) hX hX1, Option.bind_some, gemvNC_eq hO hb hM hN hA (scaled_reach hX hX1) hY hbw]

theorem gemvTC_full (hO O' : COps α) (hw : hO.w = O'.w) (h1 : hO.Good) (h2 : O'.Good) (unit : Bool) (scl : α → α) {b : GemvB} (hb : b.OK) {M N : Nat} (hM : b.Fit M) (hN : b.Fit N) {A lda X incX Y incY bufX bufA : Int} (hA : Arr hO.w M lda N)
    (hX : Reach hO.w incX M) (hX1 : Reach hO.w 1 M) (hT : (hO.w : Int) * (b.xt * b.yt) ≤ 2147483647) (hY : Reach O'.bw incY N) (hbw : (O'.bw : Int) ≤ 2147483647) (m : Mem) :
    ((scaleXC hO unit scl M X incX bufX m).bind fun s => gemvTC O' b M N A lda s.1 s.2.1 Y incY bufA s.2.2) =
      some (gemvTM O'.toMOps b M N A lda (scaleXM hO.toMOps unit scl M X incX bufX m).1 (scaleXM hO.toMOps unit scl M X incX bufX m).2.1 Y incY bufA (scaleXM hO.toMOps unit scl M X incX bufX m).2.2) := by
  have hx : 1 ≤ b.x := pos_of_pow hb.x
  have := hM.x
  rw [scaleXC_eq h1 unit scl bufX (by omega) hX hX1, Option.bind_some]
  have hs := scaled_reach (O := hO) (unit := unit) (scl := scl) (X := X) (bufX := bufX) (m := m) hX hX1
  rw [hw] at hA hs hX1 hT
  rw [gemvTC_eq h2 hb hM hN hA hs hX1 hT hY hbw]

theorem gemvC_eq (hO : O.Good) (zero unit : Bool) (scl : α → α) {b : GemvB} (hb : b.OK) {Order TransA : Char} {M N : Nat} {A lda X incX Y incY : Int} (bufX bufA : Int)
    (h : GemvFits O.w O.bw b (isRow Order) (isNo TransA) M N lda incX incY) (m : Mem) :
    gemvC O zero unit scl b Order TransA M N A lda X incX Y incY bufX bufA m = some (gemvM O.toMOps zero unit scl b Order TransA M N A lda X incX Y incY bufX bufA m) := by
  obtain ⟨hM, hN, hT, hA, hX, hX1, hY, hbw⟩ := h
  unfold gemvC gemvM
  dsimp only
  by_cases h0 : M = 0 ∨ N = 0 ∨ zero = true
  · rw [if_pos h0, if_pos h0]
  rw [if_neg h0, if_neg h0]
  have h0' : ¬ (N = 0 ∨ M = 0 ∨ zero = true) := by tauto
  cases hr : isRow Order <;> cases hn : isNo TransA <;> rw [hr] at hA <;> rw [hn] at hX hX1 hY <;>
    simp only [Bool.false_eq_true, if_false, if_true, h0, h0'] at hA hX hX1 hY ⊢
  · exact gemvNC_full hO unit scl hb hN hM hA hX hX1 hY hbw m
  · exact gemvTC_full O O rfl hO hO unit scl hb hN hM hA hX hX1 hT hY hbw m
  · exact gemvTC_full O O rfl hO hO unit scl hb hM hN hA hX hX1 hT hY hbw m
  · exact gemvNC_full hO unit scl hb hM hN hA hX hX1 hY hbw m

/-! ### matrix-matrix products -/

/-- The loops over `d` rows or columns in steps of a block size end before the counter overflows. -/
structure GemmB.Fit (b : GemmB) (d : Nat) : Prop where
  y : (d : Int) + b.y ≤ 2147483648
  x : (d : Int) + b.x ≤ 2147483648
  yt : (d : Int) + b.yt ≤ 2147483648
  xt : (d : Int) + b.xt ≤ 2147483648

theorem packC_eq (hO : O.Good) {xt yt : Nat} (hx : 1 ≤ xt) (hy : 1 ≤ yt) (f : α → α) {K M k i : Nat} {A lda buf : Int} (hK : (K : Int) + xt ≤ 2147483648) (hM : (M : Int) + yt ≤ 2147483648)
    (hA : Arr O.w K lda M) (hT : (O.w : Int) * (xt * yt) ≤ 2147483647) (m : Mem) : packC O xt yt f K M k i A lda buf m = some (packM O.toMOps xt yt f K M k i A lda buf m) := by
  refine for2_eq (by omega) (by omega) hK (fun kk m a1 a2 a3 => for2_eq (by omega) (by omega) hM (fun ii m b1 b2 b3 => ?_) m) m
  apply chk_pos
  intro z hz
  rcases List.mem_append.1 hz with hz | hz
  · exact tileS_fit hO hT b1 b3 a1 a3 (by omega) (by omega) z hz
  · exact subE_fit hO hA a2 b2 z hz

theorem scaleAC_eq (hO : O.Good) (unit : Bool) (f : α → α) {M K : Nat} {A lda buf : Int} (hM : (M : Int) ≤ 2147483647) (hK : (K : Int) ≤ 2147483647) (hA : Arr O.w M lda K)
    (hT : (O.w : Int) * (M * K) ≤ 2147483647) (m : Mem) : scaleAC O unit f M K A lda buf m = some (scaleAM O.toMOps unit f M K A lda buf m) := by
  unfold scaleAC scaleAM
  cases unit
  swap
  · rfl
  rw [if_neg Bool.false_ne_true, if_neg Bool.false_ne_true, chk_pos (allocE_fit hO hT)]
  rw [for1_eq (g := fun (i : Nat) => forS 0 K 1 (fun (k : Nat) m => O.put m (buf + O.w * (i * (K : Int) + k)) (f (O.get m (A + O.w * (i * lda + k)))))) (by omega) (by omega)]
  · rfl
  · intro i m hi
    refine for1_eq (by omega) (by omega) (fun k m hk => ?_) m
    apply chk_pos
    intro z hz
    rcases List.mem_append.1 hz with hz | hz
    · exact subE_fit hO (tile_arr (O := O) (xt := K) (yt := M) (by rw [mul_comm (K : Int)]; exact hT) (by omega)) hi hk z hz
    · exact subE_fit hO hA hi hk z hz

theorem tilesC_eq {bi bj bk M N K : Nat} (hi : 1 ≤ bi) (hj : 1 ≤ bj) (hk : 1 ≤ bk) (hM : (M : Int) + bi ≤ 2147483648) (hN : (N : Int) + bj ≤ 2147483648) (hK : (K : Int) + bk ≤ 2147483648)
    (jFirst : Bool) {pk : Nat → Nat → Nat → Mem → Option Mem} {pk' : Nat → Nat → Nat → Mem → Mem} {call : Nat → Nat → Nat → Nat → Nat → Mem → Option Mem} {call' : Nat → Nat → Nat → Nat → Nat → Mem → Mem}
    (hp : ∀ i j k m, pk i j k m = some (pk' i j k m))
    (hc : ∀ i j k ii jj m, k < K → i ≤ ii → ii < M → ii < i + bi → j ≤ jj → jj < N → jj < j + bj → call i j k ii jj m = some (call' i j k ii jj m)) (m : Mem) :
    tilesC bi bj bk M N K jFirst pk call m = some (tilesM bi bj bk M N K jFirst pk' call' m) := by
  refine for1_eq hi hM (fun i m a1 => for1_eq hj hN (fun j m a2 => for1_eq hk hK (fun k m a3 => ?_) m) m) m
  rw [hp, Option.bind_some]
  cases jFirst
  · rw [if_neg Bool.false_ne_true, if_neg Bool.false_ne_true]
    exact for2_eq (by omega) (by omega) hM (fun ii m b1 b2 b3 => for2_eq (by omega) (by omega) hN (fun jj m c1 c2 c3 => hc i j k ii jj m a3 b1 b2 b3 c1 c2 c3) m) _
  · rw [if_pos rfl, if_pos rfl]
    exact for2_eq (by omega) (by omega) hN (fun jj m b1 b2 b3 => for2_eq (by omega) (by omega) hM (fun ii m c1 c2 c3 => hc i j k ii jj m a3 c1 c2 c3 b1 b2 b3) m) _

/-- The arrays of a matrix-matrix product are not too large: the stored operands, the scaled copy of `A`, the result and a tile have at most 2147483647 words each, and the loop counters do not pass 2147483647. -/
structure GemmFits (w bw : Nat) (b : GemmB) (row noA noB : Bool) (M N K : Nat) (lda ldb ldc : Int) : Prop where
  blkM : b.Fit M
  blkN : b.Fit N
  blkK : b.Fit K
  tile : (w : Int) * (b.xt * b.yt) ≤ 2147483647
  matA : Arr w (if row == noA then M else K) lda (if row == noA then K else M)
  matB : Arr w (if row == noB then K else N) ldb (if row == noB then N else K)
  copy : (w : Int) * (M * K) ≤ 2147483647
  out : Arr bw (if row then M else N) ldc (if row then N else M)

theorem gemmC_eq (hO : O.Good) {b : GemmB} (hy : 1 ≤ b.y) (hx : 1 ≤ b.x) (hyt : 1 ≤ b.yt) (hxt : 1 ≤ b.xt) (row noA noB swap unit : Bool) (fA fB : α → α) {M N K : Nat} {A lda B ldb C ldc : Int}
    (bufS bufA bufB : Int) (hM0 : M ≠ 0) (h : GemmFits O.w O.bw b row noA noB M N K lda ldb ldc) (m : Mem) :
    gemmC O b row (row != noA) (row == noB) swap unit fA fB M N K A lda B ldb C ldc bufS bufA bufB m =
      some (gemmM O.toMOps b row (row != noA) (row == noB) swap unit fA fB M N K A lda B ldb C ldc bufS bufA bufB m) := by
  obtain ⟨hM, hN, hK, hT, hA, hB, hS, hC⟩ := h
  have eA : (row == noA) = !(row != noA) := by cases row <;> cases noA <;> rfl
  rw [eA] at hA
  generalize (row != noA) = aP at *
  generalize (row == noB) = bP at *
  clear eA
  have hMy := hM.y
  have hKx := hK.x
  unfold gemmC gemmM
  dsimp only
  have hs : (if aP = true then some (A, lda, m) else scaleAC O unit fA M K A lda bufS m) = some (if aP = true then (A, lda, m) else scaleAM O.toMOps unit fA M K A lda bufS m) := by
    cases aP
    · rw [if_neg Bool.false_ne_true, if_neg Bool.false_ne_true]
      exact scaleAC_eq (M := M) (K := K) hO unit fA (by omega) (by omega) hA hS m
    · rfl
  have hs2 : aP = false → Arr O.w M (if aP = true then (A, lda, m) else scaleAM O.toMOps unit fA M K A lda bufS m).2.1 K := by
    intro ha
    subst ha
    rw [if_neg Bool.false_ne_true]
    unfold scaleAM
    split
    · exact hA
    · exact tile_arr (O := O) (by rw [mul_comm (K : Int)]; exact hS) (by omega)
  rw [hs, Option.bind_some]
  generalize (if aP = true then (A, lda, m) else scaleAM O.toMOps unit fA M K A lda bufS m) = s at *
  have hK1 : Reach O.w 1 K := by
    have hM1 : (1 : Int) ≤ M := by exact_mod_cast (show 1 ≤ M by omega)
    have hKK : (K : Int) ≤ M * K := by nlinarith
    have : (O.w : Int) * K ≤ O.w * (M * K) := mul_le_mul_of_nonneg_left hKK (by positivity)
    unfold Reach; rw [show |(1 : Int)| = 1 from rfl, mul_one]; omega
  rw [chk_pos (by intro z hz; split at hz; exact allocE_fit hO hT z hz; simp at hz)]
  refine tilesC_eq (by split <;> assumption) (by split <;> assumption) (by split <;> assumption) (by split; exact hM.yt; exact hM.y) (by split; exact hN.yt; exact hN.y) (by split; exact hK.xt; exact hK.x) _ ?_ ?_ _
  · intro i j k m
    cases aP <;> cases bP <;> simp only [Bool.false_eq_true, if_false, if_true, Bool.not_true, Bool.not_false, Option.bind_some] at hA hB ⊢
    · exact packC_eq hO hxt hyt fB hK.xt hN.yt hB hT m
    · rw [packC_eq hO hxt hyt fA hK.xt hM.yt hA hT m]; rfl
    · rw [packC_eq hO hxt hyt fA hK.xt hM.yt hA hT m, Option.bind_some]; exact packC_eq hO hxt hyt fB hK.xt hN.yt hB hT _
  · intro i j k ii jj m hk h1 h2 h3 h4 h5 h6
    rw [chk_pos]
    · rw [hO.dot (by omega) (hK1.mono (by omega)) (hK1.mono (by omega)), hO.dot (by omega) (hK1.mono (by omega)) (hK1.mono (by omega)), Fmt.ite_some]
    · intro z hz
      simp only [List.mem_append, List.mem_singleton] at hz
      rcases hz with ((rfl | hz) | hz) | hz
      · unfold InInt; omega
      · cases aP <;> simp only [Bool.false_eq_true, if_false, if_true] at hz h3
        · exact rowE_fit hO (hs2 rfl) h2 hk z hz
        · exact tileE_fit hO hT h1 h3 hxt z hz
      · cases bP <;> simp only [Bool.false_eq_true, if_false, if_true] at hz h6 hB
        · exact rowE_fit hO hB h5 hk z hz
        · exact tileE_fit hO hT h4 h6 hxt z hz
      · cases row <;> simp only [Bool.false_eq_true, if_false, if_true] at hz hC
        · exact entE_fit hO hC h5 h2 z hz
        · exact entE_fit hO hC h2 h5 z hz

/-! ### the wrappers -/

theorem rgemvC_eq (hO : O.Good) (zero unit : Bool) (scl : α → α) {prod : Int → Mem → Option Mem} {prod' : Int → Mem → Mem} (noTrans : Bool) {M N : Nat} {Y incY : Int} (YI : Int)
    (hM : (M : Int) ≤ 2147483647) (hN : (N : Int) ≤ 2147483647) (hp : ∀ m, M ≠ 0 → N ≠ 0 → prod YI m = some (prod' YI m)) (hY : Reach O.w incY (if noTrans then M else N))
    (hY1 : Reach O.bw 1 (if noTrans then M else N)) (m : Mem) :
    rgemvC O zero unit scl prod noTrans M N Y incY YI m = some (rgemvM O.toMOps zero unit scl prod' noTrans M N Y incY YI m) := by
  unfold rgemvC rgemvM
  by_cases h0 : N = 0 ∨ M = 0
  · rw [if_pos h0, if_pos h0]
  rw [if_neg h0, if_neg h0]
  dsimp only
  have hn : ((if noTrans = true then M else N : Nat) : Int) ≤ 2147483647 := by split <;> assumption
  have hn0 : 1 ≤ (if noTrans = true then M else N) := by split <;> omega
  generalize (if noTrans = true then M else N) = n at *
  have hbw : (O.bw : Int) ≤ 2147483647 := by
    have := hY1.mono hn0
    unfold Reach at this
    rw [show |(1 : Int)| = 1 from rfl] at this
    omega
  have hw1 : Reach O.w 1 n := by
    unfold Reach at *
    have : (O.w : Int) * |1| * n ≤ O.bw * |1| * n := by
      rw [show |(1 : Int)| = 1 from rfl, mul_one, mul_one]
      exact mul_le_mul_of_nonneg_right (by exact_mod_cast hO.wbw) (by positivity)
    omega
  rw [for1_eq (g := fun (i : Nat) => initM O.toMOps zero unit scl (YI + O.bw * i) (Y + O.w * (i * incY))) (by omega) (by omega), Option.bind_some, hp _ (by omega) (by omega), Option.bind_some]
  · refine for1_eq (by omega) (by omega) (fun i m hi => chk_pos ?_) _
    intro z hz
    rcases List.mem_append.1 hz with hz | hz
    · exact outE_fit hO hY1 hbw hi z hz
    · exact vecE_fit hO hY hw1 hi z hz
  · intro i m hi
    refine chk_pos ?_
    intro z hz
    split at hz
    · simp at hz
    · rcases List.mem_append.1 hz with hz | hz
      · exact outE_fit hO hY1 hbw hi z hz
      · split at hz
        · exact vecE_fit hO hY hw1 hi z hz
        · exact elE_fit hO hY hw1 hi z hz

theorem one_fit' (hO : O.Good) {M N : Nat} (h : (O.bw : Int) * (M * N) ≤ 2147483647) : ∀ z ∈ [(M : Int) * N], InInt z := by
  intro z hz
  rw [List.mem_singleton] at hz
  subst hz
  have hbw : (1 : Int) ≤ O.bw := by exact_mod_cast hO.bw
  have h0 : (0 : Int) ≤ (M : Int) * N := by positivity
  have : (M : Int) * N ≤ O.bw * (M * N) := by nlinarith
  unfold InInt; omega

theorem rgemmC_eq (hO : O.Good) (zero unit : Bool) (scl : α → α) {prod : Int → Int → Mem → Option Mem} {prod' : Int → Int → Mem → Mem} (row : Bool) {M N : Nat} {C ldc : Int} (CI : Int)
    (hM : (M : Int) ≤ 2147483647) (hN : (N : Int) ≤ 2147483647) (hp : ∀ m, M ≠ 0 → N ≠ 0 → prod CI (if row then N else M : Nat) m = some (prod' CI (if row then N else M : Nat) m))
    (hC : Arr O.w (if row then M else N) ldc (if row then N else M)) (hC1 : (O.bw : Int) * (M * N) ≤ 2147483647) (m : Mem) :
    rgemmC O zero unit scl prod row M N C ldc CI m = some (rgemmM O.toMOps zero unit scl prod' row M N C ldc CI m) := by
  have hbw : (1 : Int) ≤ O.bw := by exact_mod_cast hO.bw
  have key : ∀ {P Q : Nat}, P ≠ 0 → (P : Int) ≤ 2147483647 → (Q : Int) ≤ 2147483647 → (O.bw : Int) * (Q * P) ≤ 2147483647 → Arr O.w P ldc Q → ∀ (m : Mem) (pr : Mem → Option Mem) (pr' : Mem → Mem), (∀ m, pr m = some (pr' m)) →
      ((for1 P 1 (fun i => for1 Q 1 (fun j m => chk (if zero then [] else entE O i Q j ++ subE O i ldc j) <|
        some (initM O.toMOps zero unit scl (CI + O.bw * (i * (Q : Int) + j)) (C + O.w * (i * ldc + j)) m))) m).bind fun m => (pr m).bind fun m =>
        for1 P 1 (fun i => for1 Q 1 (fun j m => chk (entE O i Q j ++ subE O i ldc j) <|
          some (O.put m (C + O.w * (i * ldc + j)) (O.unconv (CI + O.bw * (i * (Q : Int) + j)) m)))) m) =
      some (forS 0 P 1 (fun i => forS 0 Q 1 (fun j m => O.put m (C + O.w * (i * ldc + j)) (O.unconv (CI + O.bw * (i * (Q : Int) + j)) m)))
        (pr' (forS 0 P 1 (fun i => forS 0 Q 1 (fun j => initM O.toMOps zero unit scl (CI + O.bw * (i * (Q : Int) + j)) (C + O.w * (i * ldc + j)))) m))) := by
    intro P Q hP0 hP hQ hbin hA m pr pr' hpr
    have hb : Arr O.bw P Q Q := by
      unfold Arr
      rw [Nat.abs_cast, show (((P - 1 : Nat) : Int) * Q + Q) = Q * P by rw [Nat.cast_sub (by omega)]; push_cast; ring]
      exact hbin
    rw [for1_eq (g := fun (i : Nat) => forS 0 Q 1 (fun (j : Nat) => initM O.toMOps zero unit scl (CI + O.bw * (i * (Q : Int) + j)) (C + O.w * (i * ldc + j)))) (by omega) (by omega),
      Option.bind_some, hpr, Option.bind_some]
    · refine for1_eq (by omega) (by omega) (fun i m hi => for1_eq (by omega) (by omega) (fun j m hj => chk_pos ?_) m) _
      intro z hz
      rcases List.mem_append.1 hz with hz | hz
      · exact entE_fit hO hb hi hj z hz
      · exact subE_fit hO hA hi hj z hz
    · intro i m hi
      refine for1_eq (by omega) (by omega) (fun j m hj => chk_pos ?_) m
      intro z hz
      split at hz
      · simp at hz
      · rcases List.mem_append.1 hz with hz | hz
        · exact entE_fit hO hb hi hj z hz
        · exact subE_fit hO hA hi hj z hz
  unfold rgemmC rgemmM
  by_cases h0 : M = 0 ∨ N = 0
  · rw [if_pos h0, if_pos h0]
  rw [if_neg h0, if_neg h0, chk_pos (one_fit' hO hC1)]
  cases row <;> simp only [Bool.false_eq_true, if_false, if_true] at hC hp ⊢
  · exact key (by omega) hN hM hC1 hC m _ _ (fun m => hp m (by omega) (by omega))
  · exact key (by omega) hM hN (by rw [mul_comm (N : Int)]; exact hC1) hC m _ _ (fun m => hp m (by omega) (by omega))

end

/-! ### the routines -/

namespace Fmt
variable {F : Fmt}

theorem dgemvC_eq (hF : F = f64 ∨ F = f32) {T : Tune} (hT : T.OK F) (hs : T.Small) (expand : Bool) {fold : Nat} (hf : 1 ≤ fold) (jA jD : Junk) {b : GemvB} (hb : b.OK) {Order TransA : Char} {M N : Nat} (alpha : Flt)
    {A lda X incX Y incY : Int} (bufX bufA : Int) (h : GemvFits 1 (2 * fold) b (isRow Order) (isNo TransA) M N lda incX incY) (m : Mem) :
    F.dgemvC T expand fold jA jD b Order TransA M N alpha A lda X incX Y incY bufX bufA m = some (F.dgemvM T expand fold jA jD b Order TransA M N alpha A lda X incX Y incY bufX bufA m) :=
  gemvC_eq (realOpsC_good hF hT hs expand hf jA jD) _ _ _ hb bufX bufA h m

theorem dgemmC_eq (hF : F = f64 ∨ F = f32) {T : Tune} (hT : T.OK F) (hs : T.Small) (expand : Bool) {fold : Nat} (hf : 1 ≤ fold) (jA jD : Junk) {b : GemmB} (hy : 1 ≤ b.y) (hx : 1 ≤ b.x) (hyt : 1 ≤ b.yt) (hxt : 1 ≤ b.xt)
    {Order TransA TransB : Char} {M N K : Nat} (alpha : Flt) {A lda B ldb C ldc : Int} (bufS bufA bufB : Int) (h : GemmFits 1 (2 * fold) b (isRow Order) (isNo TransA) (isNo TransB) M N K lda ldb ldc) (m : Mem) :
    F.dgemmC T expand fold jA jD b Order TransA TransB M N K alpha A lda B ldb C ldc bufS bufA bufB m =
      some (F.dgemmM T expand fold jA jD b Order TransA TransB M N K alpha A lda B ldb C ldc bufS bufA bufB m) := by
  unfold dgemmC dgemmM
  by_cases h0 : M = 0 ∨ N = 0 ∨ K = 0 ∨ isZero alpha = true
  · rw [if_pos h0, if_pos h0]
  rw [if_neg h0, if_neg h0]
  exact gemmC_eq (realOpsC_good hF hT hs expand hf jA jD) hy hx hyt hxt _ _ _ _ _ _ _ bufS bufA bufB (by tauto) h m

theorem rdgemvC_eq (hF : F = f64 ∨ F = f32) {T : Tune} (hT : T.OK F) (hs : T.Small) (expand : Bool) {fold : Nat} (hf : 1 ≤ fold) (jA jD : Junk) {b : GemvB} (hb : b.OK) {Order TransA : Char} {M N : Nat} (alpha : Flt)
    {A lda X incX : Int} (beta : Flt) {Y incY : Int} (YI bufX bufA : Int) (h : GemvFits 1 (2 * fold) b (isRow Order) (isNo TransA) M N lda incX 1)
    (hY : Reach 1 incY (if isNo TransA then M else N)) (m : Mem) :
    F.rdgemvC T expand fold jA jD b Order TransA M N alpha A lda X incX beta Y incY YI bufX bufA m =
      some (F.rdgemvM T expand fold jA jD b Order TransA M N alpha A lda X incX beta Y incY YI bufX bufA m) := by
  have h1 := h.blkM.y
  have h2 := h.blkN.y
  have h3 := pos_of_pow hb.y
  exact rgemvC_eq (realOpsC_good hF hT hs expand hf jA jD) _ _ _ _ YI (by omega) (by omega) (fun m _ _ => dgemvC_eq hF hT hs expand hf jA jD hb alpha bufX bufA h m) hY h.out m

theorem rdgemmC_eq (hF : F = f64 ∨ F = f32) {T : Tune} (hT : T.OK F) (hs : T.Small) (expand : Bool) {fold : Nat} (hf : 1 ≤ fold) (jA jD : Junk) {b : GemmB} (hy : 1 ≤ b.y) (hx : 1 ≤ b.x) (hyt : 1 ≤ b.yt) (hxt : 1 ≤ b.xt)
    {Order TransA TransB : Char} {M N K : Nat} (alpha : Flt) {A lda B ldb : Int} (beta : Flt) {C ldc : Int} (CI bufS bufA bufB : Int)
    (h : GemmFits 1 (2 * fold) b (isRow Order) (isNo TransA) (isNo TransB) M N K lda ldb (if isRow Order then N else M : Nat))
    (hC : Arr 1 (if isRow Order then M else N) ldc (if isRow Order then N else M)) (hCI : ((2 * fold : Nat) : Int) * (M * N) ≤ 2147483647) (m : Mem) :
    F.rdgemmC T expand fold jA jD b Order TransA TransB M N K alpha A lda B ldb beta C ldc CI bufS bufA bufB m =
      some (F.rdgemmM T expand fold jA jD b Order TransA TransB M N K alpha A lda B ldb beta C ldc CI bufS bufA bufB m) := by
  have h1 := h.blkM.y
  have h2 := h.blkN.y
  refine rgemmC_eq (realOpsC_good hF hT hs expand hf jA jD) _ _ _ _ CI (by omega) (by omega) (fun m _ _ => ?_) hC hCI m
  exact dgemmC_eq hF hT hs expand hf jA jD hy hx hyt hxt alpha bufS bufA bufB h m

theorem zgemvCC_eq {O : COps (Flt × Flt)} (hO : O.Good) {b : GemvB} (hb : b.OK) {M N : Nat} (hM : b.Fit M) (hN : b.Fit N) {A lda bufX incbufX Y incY : Int} (hA : Arr O.w N lda M) (hX : Reach O.w incbufX M)
    (hX1 : Reach O.w 1 M) (hX' : Reach O.w incbufX N) (hX1' : Reach O.w 1 N) (hY : Reach O.bw incY N) (hbw : (O.bw : Int) ≤ 2147483647) (m : Mem) :
    zgemvCC O b M N A lda bufX incbufX Y incY m = some (zgemvCM O.toMOps b M N A lda bufX incbufX Y incY m) := by
  have hy : 1 ≤ b.y := pos_of_pow hb.y
  have hx : 1 ≤ b.x := pos_of_pow hb.x
  have hN' := hN.y
  have hM' := hM.x
  refine for1_eq hy hN.y (fun i m hi => for1_eq hx hM.x (fun j m hj => for2_eq (by omega) (by omega) hN.y (fun ii m h1 h2 h3 => ?_) m) m) m
  rw [chk_pos, hO.dot (by omega) (hX1'.mono (by omega)) (hX'.mono (by omega))]
  intro z hz
  simp only [List.mem_append, List.mem_singleton] at hz
  rcases hz with ((rfl | hz) | hz) | hz
  · unfold InInt; omega
  · exact rowE_fit hO hA h2 hj z hz
  · exact vecE_fit hO hX hX1 hj z hz
  · exact outE_fit hO hY hbw h2 z hz

/-- In the column-major conjugate transposed case the C code bounds the length of the dot products by `N - j` instead of `M - j`; the vector must then have a representable extent for `N` elements, too. -/
theorem zgemvK_eq (hF : F = f64 ∨ F = f32) {T : Tune} (hT : T.OK F) (hs : T.Small) (expand : Bool) {fold : Nat} (hf : 1 ≤ fold) (jA jD : Junk) {b : GemvB} (hb : b.OK) {Order TransA : Char} {M N : Nat} (alpha : Flt × Flt)
    {A lda X incX Y incY : Int} (bufX bufA : Int) (h : GemvFits 2 (4 * fold) b (isRow Order) (isNo TransA) M N lda incX incY) (hcj : isRow Order = false → trOf TransA = .cj → Reach 2 incX N ∧ Reach 2 1 N) (m : Mem) :
    F.zgemvK T expand fold jA jD b Order TransA M N alpha A lda X incX Y incY bufX bufA m = some (F.zgemvM T expand fold jA jD b Order TransA M N alpha A lda X incX Y incY bufX bufA m) := by
  obtain ⟨hM, hN, hTl, hA, hX, hX1, hY, hbw⟩ := h
  have g0 := cplxOpsC_good hF hT hs expand hf jA jD false
  have g1 := cplxOpsC_good hF hT hs expand hf jA jD true
  unfold zgemvK zgemvM
  dsimp only
  by_cases h0 : M = 0 ∨ N = 0 ∨ zzero alpha = true
  · rw [if_pos h0, if_pos h0]
  rw [if_neg h0, if_neg h0]
  have h0' : ¬ (N = 0 ∨ M = 0 ∨ zzero alpha = true) := by tauto
  have hno : isNo TransA = (trOf TransA == .no) := by unfold trOf; cases isNo TransA <;> simp; split <;> simp
  rw [hno] at hX hX1 hY
  cases hr : isRow Order <;> rw [hr] at hA hcj <;> cases ht : trOf TransA <;> rw [ht] at hX hX1 hY hcj <;>
    simp only [Bool.false_eq_true, if_false, if_true, h0, h0', beq_self_eq_true, reduceCtorEq, beq_iff_eq] at hA hX hX1 hY ⊢
  · exact gemvTC_full _ _ rfl g0 g0 _ _ hb hN hM hA hX hX1 hTl hY hbw m
  · exact gemvNC_full g0 _ _ hb hN hM hA hX hX1 hY hbw m
  · obtain ⟨c1, c2⟩ := hcj rfl rfl
    have := hM.x
    have := pos_of_pow hb.x
    rw [scaleXC_eq g0 _ _ bufX (by omega) hX hX1, Option.bind_some]
    refine zgemvCC_eq g1 hb hM hN hA (scaled_reach (O := cplxOpsC F T expand fold jA jD false) hX hX1) hX1 ?_ c2 hY hbw _
    unfold scaleXM; split
    · exact c1
    · exact c2
  · exact gemvNC_full g0 _ _ hb hM hN hA hX hX1 hY hbw m
  · exact gemvTC_full _ _ rfl g0 g0 _ _ hb hM hN hA hX hX1 hTl hY hbw m
  · exact gemvTC_full (cplxOpsC F T expand fold jA jD false) (cplxOpsC F T expand fold jA jD true) rfl g0 g1 _ _ hb hM hN hA hX hX1 hTl hY hbw m

theorem zgemmK_eq (hF : F = f64 ∨ F = f32) {T : Tune} (hT : T.OK F) (hs : T.Small) (expand : Bool) {fold : Nat} (hf : 1 ≤ fold) (jA jD : Junk) {b : GemmB} (hy : 1 ≤ b.y) (hx : 1 ≤ b.x) (hyt : 1 ≤ b.yt) (hxt : 1 ≤ b.xt)
    {Order TransA TransB : Char} {M N K : Nat} (alpha : Flt × Flt) {A lda B ldb C ldc : Int} (bufS bufA bufB : Int) (h : GemmFits 2 (4 * fold) b (isRow Order) (isNo TransA) (isNo TransB) M N K lda ldb ldc) (m : Mem) :
    F.zgemmK T expand fold jA jD b Order TransA TransB M N K alpha A lda B ldb C ldc bufS bufA bufB m =
      some (F.zgemmM T expand fold jA jD b Order TransA TransB M N K alpha A lda B ldb C ldc bufS bufA bufB m) := by
  unfold zgemmK zgemmM
  by_cases h0 : M = 0 ∨ N = 0 ∨ K = 0 ∨ zzero alpha = true
  · rw [if_pos h0, if_pos h0]
  rw [if_neg h0, if_neg h0]
  exact gemmC_eq (cplxOpsC_good hF hT hs expand hf jA jD _) hy hx hyt hxt _ _ _ _ _ _ _ bufS bufA bufB (by tauto) h m

theorem rzgemvK_eq (hF : F = f64 ∨ F = f32) {T : Tune} (hT : T.OK F) (hs : T.Small) (expand : Bool) {fold : Nat} (hf : 1 ≤ fold) (jA jD : Junk) {b : GemvB} (hb : b.OK) {Order TransA : Char} {M N : Nat} (alpha : Flt × Flt)
    {A lda X incX : Int} (beta : Flt × Flt) {Y incY : Int} (YI bufX bufA : Int) (h : GemvFits 2 (4 * fold) b (isRow Order) (isNo TransA) M N lda incX 1)
    (hcj : isRow Order = false → trOf TransA = .cj → Reach 2 incX N ∧ Reach 2 1 N) (hY : Reach 2 incY (if isNo TransA then M else N)) (m : Mem) :
    F.rzgemvK T expand fold jA jD b Order TransA M N alpha A lda X incX beta Y incY YI bufX bufA m =
      some (F.rzgemvM T expand fold jA jD b Order TransA M N alpha A lda X incX beta Y incY YI bufX bufA m) := by
  have h1 := h.blkM.y
  have h2 := h.blkN.y
  have h3 := pos_of_pow hb.y
  exact rgemvC_eq (cplxOpsC_good hF hT hs expand hf jA jD false) _ _ _ _ YI (by omega) (by omega) (fun m _ _ => zgemvK_eq hF hT hs expand hf jA jD hb alpha bufX bufA h hcj m) hY h.out m

theorem rzgemmK_eq (hF : F = f64 ∨ F = f32) {T : Tune} (hT : T.OK F) (hs : T.Small) (expand : Bool) {fold : Nat} (hf : 1 ≤ fold) (jA jD : Junk) {b : GemmB} (hy : 1 ≤ b.y) (hx : 1 ≤ b.x) (hyt : 1 ≤ b.yt) (hxt : 1 ≤ b.xt)
    {Order TransA TransB : Char} {M N K : Nat} (alpha : Flt × Flt) {A lda B ldb : Int} (beta : Flt × Flt) {C ldc : Int} (CI bufS bufA bufB : Int)
    (h : GemmFits 2 (4 * fold) b (isRow Order) (isNo TransA) (isNo TransB) M N K lda ldb (if isRow Order then N else M : Nat))
    (hC : Arr 2 (if isRow Order then M else N) ldc (if isRow Order then N else M)) (hCI : ((4 * fold : Nat) : Int) * (M * N) ≤ 2147483647) (m : Mem) :
    F.rzgemmK T expand fold jA jD b Order TransA TransB M N K alpha A lda B ldb beta C ldc CI bufS bufA bufB m =
      some (F.rzgemmM T expand fold jA jD b Order TransA TransB M N K alpha A lda B ldb beta C ldc CI bufS bufA bufB m) := by
  have h1 := h.blkM.y
  have h2 := h.blkN.y
  refine rgemmC_eq (cplxOpsC_good hF hT hs expand hf jA jD false) _ _ _ _ CI (by omega) (by omega) (fun m _ _ => ?_) hC hCI m
  exact zgemmK_eq hF hT hs expand hf jA jD hy hx hyt hxt alpha bufS bufA bufB h m

end Fmt
end Repro

import Verif.Mpi
import Verif.PropsMem
import Verif.PropsInf
/-!
# C27, C43, C44: MPI reductions
-/

namespace Repro
open Fmt
variable {F : Fmt}

/-! ## Reductions of any kind of element -/

/-- A reduction tree over ranks: the left operand is `invec`, the right one `inoutvec`. -/
inductive RTree where
  | rank (r : Nat)
  | node (l r : RTree)

namespace RTree
def ranks : RTree → List Nat
  | rank r => [r]
  | node l r => l.ranks ++ r.ranks
/-- The value of a tree when rank `r` contributes `init r` and `merge x y` is the result of `y += x`. -/
def eval {V : Type} (merge : V → V → V) (init : Nat → V) : RTree → V
  | rank r => init r
  | node l r => merge (l.eval merge init) (r.eval merge init)
end RTree

/-- What the generic argument needs of an operation: elements lie in their own words and the operation merges
corresponding elements. -/
structure RedOp.Sound (o : RedOp) {V : Type} (look : Int → Mem → V) (merge : V → V → V) : Prop where
  pos : 0 < o.words
  local_ : ∀ a b m m', (∀ d, 0 ≤ d → d < o.words → m (a + d) = m' (b + d)) → look a m = look b m'
  op : ∀ (len : Nat) (m : Mem) (i : Nat), i < len → look (len * o.words + i * o.words) (o.op 0 (len * o.words) len m) =
      merge (look (i * o.words) m) (look (len * o.words + i * o.words) m)

theorem seg_lt {i len : Nat} {w d : Int} (hi : i < len) (_hw : 0 < w) (hd : 0 ≤ d) (hd' : d < w) :
    0 ≤ (i : Int) * w + d ∧ (i : Int) * w + d < len * w := by
  have h1 : 0 ≤ (i : Int) * w := Int.mul_nonneg (by omega) (by omega)
  have h2 : ((i : Int) + 1) * w ≤ len * w := Int.mul_le_mul_of_nonneg_right (by omega) (by omega)
  rw [Int.add_mul, Int.one_mul] at h2
  omega

theorem combine_spec {o : RedOp} {V : Type} {look : Int → Mem → V} {merge : V → V → V} (hs : o.Sound look merge)
    (recvIn : Bool) (lo len : Nat) (own other : Mem) (i : Nat) :
    look (i * o.words) (o.combine recvIn lo len own other) =
      if lo ≤ i ∧ i < lo + len then
        (if recvIn then merge (look (i * o.words) other) (look (i * o.words) own)
         else merge (look (i * o.words) own) (look (i * o.words) other))
      else look (i * o.words) own := by
  have hw := hs.pos
  split
  next hi =>
    obtain ⟨j, rfl⟩ : ∃ j, i = lo + j := ⟨i - lo, by omega⟩
    have hj : j < len := by omega
    have stg : ∀ A B : Mem, look (j * o.words) (o.stage lo len A B) = look ((lo + j : Nat) * o.words) A ∧
        look (len * o.words + j * o.words) (o.stage lo len A B) = look ((lo + j : Nat) * o.words) B := by
      intro A B
      constructor <;> apply hs.local_ <;> intro d h0 h1 <;> have := seg_lt hj hw h0 h1 <;> unfold RedOp.stage
      · rw [if_pos this]; congr 1
        push_cast; rw [Int.add_mul]; omega
      · rw [if_neg (by omega), if_pos (by omega)]; congr 1
        push_cast; rw [Int.add_mul]; omega
    have e : ∀ st : Mem, look ((lo + j : Nat) * o.words)
        (fun a => if lo * o.words ≤ a ∧ a < (lo + len : Nat) * o.words then st (len * o.words + (a - lo * o.words)) else own a) =
        look (len * o.words + j * o.words) st := by
      intro st
      apply hs.local_
      intro d h0 h1
      have := seg_lt hj hw h0 h1
      rw [if_pos (by push_cast; rw [Int.add_mul, Int.add_mul]; omega)]
      congr 1
      push_cast; rw [Int.add_mul]; omega
    unfold RedOp.combine
    dsimp only
    rw [e, hs.op len _ j hj]
    cases recvIn
    · simp only [Bool.false_eq_true, if_false]
      rw [(stg own other).1, (stg own other).2]
    · simp only [if_true]
      rw [(stg other own).1, (stg other own).2]
  next hi =>
    unfold RedOp.combine
    dsimp only
    apply hs.local_
    intro d h0 h1
    rw [if_neg]
    intro hc
    apply hi
    obtain ⟨c1, c2⟩ := hc
    constructor
    · apply Decidable.byContradiction; intro hlt
      have : ((i : Int) + 1) * o.words ≤ lo * o.words := Int.mul_le_mul_of_nonneg_right (by omega) (by omega)
      rw [Int.add_mul, Int.one_mul] at this; omega
    · apply Decidable.byContradiction; intro hlt
      have : ((lo + len : Nat) : Int) * o.words ≤ i * o.words := Int.mul_le_mul_of_nonneg_right (by omega) (by omega)
      omega

theorem flatMap_congr' {α β : Type} {f g : α → List β} : ∀ {l : List α}, (∀ r ∈ l, f r = g r) → l.flatMap f = l.flatMap g
  | [], _ => rfl
  | a :: l, h => by
    rw [List.flatMap_cons, List.flatMap_cons, h a (by simp), flatMap_congr' (fun r hr => h r (by simp [hr]))]

theorem flatMap_two {α : Type} {l : List Nat} (hl : l.Nodup) {p q : Nat} (hp : p ∈ l) (hq : q ∈ l) (hpq : p ≠ q)
    {f g : Nat → List α} (hf : (f p ++ f q).Perm (g p ++ g q)) (hr : ∀ r, r ≠ p → r ≠ q → f r = g r) :
    (l.flatMap f).Perm (l.flatMap g) := by
  have h1 := List.perm_cons_erase hp
  have hq' : q ∈ l.erase p := (List.mem_erase_of_ne (Ne.symm hpq)).2 hq
  have h2 := List.perm_cons_erase hq'
  have h3 : l.Perm (p :: q :: (l.erase p).erase q) := h1.trans (h2.cons p)
  refine (h3.flatMap_right f).trans (List.Perm.trans ?_ (h3.flatMap_right g).symm)
  have hn : (p :: q :: (l.erase p).erase q).Nodup := h3.nodup_iff.1 hl
  simp only [List.flatMap_cons, ← List.append_assoc]
  refine List.Perm.append hf ?_
  have : ((l.erase p).erase q).flatMap f = ((l.erase p).erase q).flatMap g := by
    apply flatMap_congr'
    intro r hr'
    simp only [List.nodup_cons, List.mem_cons, not_or] at hn
    exact hr r (fun e => hn.1.2 (e ▸ hr')) (fun e => hn.2.1 (e ▸ hr'))
  rw [this]

/-- In every reachable state, each live partial result is the value of a tree over ranks, and the live trees of
an element together have every rank exactly once. -/
theorem mpi_trees {o : RedOp} {V : Type} {look : Int → Mem → V} {merge : V → V → V} (hs : o.Sound look merge)
    {R L : Nat} {buf : Nat → Mem} {s : Mpi} (hr : MpiRun o R L (Mpi.start R L buf) s) {i : Nat} (hi : i < L) :
    ∃ T : Nat → RTree,
      (∀ r < R, s.live r i = true → look (i * o.words) (s.buf r) = (T r).eval merge (fun r => look (i * o.words) (buf r))) ∧
      ((List.range R).flatMap (fun r => if s.live r i = true then (T r).ranks else [])).Perm (List.range R) := by
  induction hr with
  | start =>
    refine ⟨fun r => .rank r, fun r _ _ => rfl, ?_⟩
    have : (List.range R).flatMap (fun r => if (Mpi.start R L buf).live r i = true then (RTree.rank r).ranks else []) =
        (List.range R).flatMap (fun r => [r]) := by
      apply flatMap_congr'
      intro r h
      rw [if_pos (by simp [Mpi.start, List.mem_range.1 h, hi])]; rfl
    rw [this]
    simp
  | @step t u _ hstep ih =>
    obtain ⟨T, h1, h2⟩ := ih
    cases hstep with
    | message p q lo len recvIn hp hq hpq hL hlive =>
      by_cases hin : lo ≤ i ∧ i < lo + len
      · obtain ⟨lp, lq⟩ := hlive i hin.1 hin.2
        refine ⟨fun r => if r = q then (if recvIn then .node (T p) (T q) else .node (T q) (T p)) else T r, ?_, ?_⟩
        · intro r hrR hl
          dsimp only at hl ⊢
          by_cases hrq : r = q
          · subst hrq
            rw [if_pos rfl, if_pos rfl, combine_spec hs, if_pos hin, h1 p hp lp, h1 r hq lq]
            cases recvIn <;> rfl
          · rw [if_neg hrq, if_neg hrq]
            by_cases hrp : r = p
            · rw [if_pos ⟨hrp, hin⟩] at hl; exact absurd hl (by simp)
            · rw [if_neg (fun h => hrp h.1)] at hl
              exact h1 r hrR hl
        · refine List.Perm.trans ?_ h2
          dsimp only
          apply flatMap_two List.nodup_range (List.mem_range.2 hp) (List.mem_range.2 hq) hpq
          · simp only [hin, and_true, if_true, lp, lq, if_neg hpq, if_neg (Ne.symm hpq), Bool.false_eq_true, if_false, List.nil_append]
            cases recvIn
            · simpa [RTree.ranks] using List.perm_append_comm
            · simp [RTree.ranks]
          · intro r h3 h4
            simp [h3, h4]
      · refine ⟨T, ?_, ?_⟩
        · intro r hrR hl
          dsimp only at hl ⊢
          rw [if_neg (fun h => hin h.2)] at hl
          by_cases hrq : r = q
          · subst hrq
            rw [if_pos rfl, combine_spec hs, if_neg hin]; exact h1 r hq hl
          · rw [if_neg hrq]; exact h1 r hrR hl
        · refine List.Perm.trans (List.Perm.of_eq ?_) h2
          apply flatMap_congr'
          intro r _
          simp only [if_neg (c := r = p ∧ lo ≤ i ∧ i < lo + len) (fun h => hin h.2)]

/-- When a single rank is left, it holds the value of a tree with every rank exactly once. -/
theorem mpi_done {o : RedOp} {V : Type} {look : Int → Mem → V} {merge : V → V → V} (hs : o.Sound look merge)
    {R L : Nat} {buf : Nat → Mem} {s : Mpi} (hr : MpiRun o R L (Mpi.start R L buf) s) {i : Nat} (hi : i < L)
    {root : Nat} (hroot : root < R) (hdone : ∀ r < R, s.live r i = true ↔ r = root) :
    ∃ t : RTree, t.ranks.Perm (List.range R) ∧
      look (i * o.words) (s.buf root) = t.eval merge (fun r => look (i * o.words) (buf r)) := by
  obtain ⟨T, h1, h2⟩ := mpi_trees hs hr hi
  refine ⟨T root, List.Perm.trans ?_ h2, h1 root hroot ((hdone root hroot).2 rfl)⟩
  have : (List.range R).flatMap (fun r => if s.live r i = true then (T r).ranks else []) =
      (List.range R).flatMap (fun r => if r = root then (T r).ranks else []) := by
    apply flatMap_congr'
    intro r h
    by_cases hr' : r = root
    · rw [if_pos hr', if_pos ((hdone r (List.mem_range.1 h)).2 hr')]
    · rw [if_neg hr', if_neg (fun h' => hr' ((hdone r (List.mem_range.1 h)).1 h'))]
  rw [this]
  have h3 := List.perm_cons_erase (List.mem_range.2 hroot)
  refine List.Perm.trans ?_ (h3.flatMap_right _).symm
  rw [List.flatMap_cons, if_pos rfl]
  have : ((List.range R).erase root).flatMap (fun r => if r = root then (T r).ranks else []) = [] := by
    rw [List.flatMap_eq_nil_iff]
    intro r h
    rw [if_neg]
    exact fun e => (List.nodup_range.not_mem_erase (a := root)) (e ▸ h)
  rw [this, List.append_nil]

/-! ## C27: real values -/

/-- The tree of accumulations that a tree over ranks stands for. -/
def RTree.toTree (data : Nat → List Flt) : RTree → Tree
  | rank r => .leaf (data r)
  | node l r => .node (l.toTree data) (r.toTree data)

theorem RTree.toTree_eval (fold : Nat) (data : Nat → List Flt) : ∀ t : RTree,
    (t.toTree data).eval F fold = t.eval (F.dmdmadd fold) (fun r => F.sumSeq fold (data r) (dmsetzero fold))
  | rank r => rfl
  | node l r => by
    show F.dmdmadd fold _ _ = F.dmdmadd fold _ _
    rw [toTree_eval fold data l, toTree_eval fold data r]

theorem RTree.toTree_nums (data : Nat → List Flt) : ∀ t : RTree, (t.toTree data).nums = t.ranks.flatMap data
  | rank r => by simp [toTree, Tree.nums, ranks]
  | node l r => by
    show _ ++ _ = (l.ranks ++ r.ranks).flatMap data
    rw [toTree_nums data l, toTree_nums data r, List.flatMap_append]

/-- **C27**, for any tree: whatever tree over the ranks is used (every rank once, in any position), the result has
the bits of the sequential sum of all the data. In particular all ranks get the same bits from an all-reduce. -/
theorem C27_any_tree [F.OK] {fold : Nat} (hfold : 2 ≤ fold) {R : Nat} (data : Nat → List Flt) (t : RTree)
    (ht : t.ranks.Perm (List.range R)) (hx : ∀ r < R, ∀ x ∈ data r, F.Finite x)
    (hN : ((List.range R).flatMap data).length ≤ F.capacity) :
    t.eval (F.dmdmadd fold) (fun r => F.sumSeq fold (data r) (dmsetzero fold)) =
      F.sumSeq fold ((List.range R).flatMap data) (dmsetzero fold) := by
  rw [← RTree.toTree_eval]
  apply C02_reduction_tree hfold _ _ _ hN
  · rw [RTree.toTree_nums]; exact ht.flatMap_right data
  · intro x hx'
    obtain ⟨r, hr, h⟩ := List.mem_flatMap.1 hx'
    exact hx r (List.mem_range.1 hr) x h

/-- Element of a buffer of packed values. -/
def lookD (fold : Nat) (a : Int) (m : Mem) : Binned := view fold (packed fold a) m

theorem lookD_local {fold : Nat} (a b : Int) (m m' : Mem) (h : ∀ d, 0 ≤ d → d < dbnum fold → m (a + d) = m' (b + d)) :
    lookD fold a m = lookD fold b m' := by
  unfold lookD view packed Loc.P Loc.C
  dsimp only
  have hd : dbnum fold = 2 * fold := rfl
  congr 1 <;> apply List.map_congr_left <;> intro i hi <;> rw [List.mem_range] at hi
  · have := h i (by omega) (by omega)
    rw [Int.mul_one]; exact this
  · have := h (fold + i) (by omega) (by omega)
    rw [Int.mul_one, Int.add_assoc, Int.add_assoc]; exact this

theorem mpiAdd_sound {fold : Nat} (hfold : 1 ≤ fold) : (F.mpiAdd fold).Sound (lookD fold) (F.dmdmadd fold) where
  pos := by show 0 < dbnum fold; unfold dbnum; omega
  local_ := lookD_local
  op := by
    intro len m i hi
    show lookD fold (len * dbnum fold + i * dbnum fold) (F.dbdbaddvM fold len 0 1 (len * dbnum fold) 1 m) = _
    have hd : 0 < dbnum fold := by unfold dbnum; omega
    have h := (C35_addv (F := F) hfold len 0 1 (len * dbnum fold) 1 (by decide) (by
      intro i hi j hj a h1 h2
      rw [packed_in, Int.one_mul] at h1 h2
      have h3 := seg_lt (d := dbnum fold - 1) hi hd (by omega) (by omega)
      have h4 := seg_lt (d := 0) hj hd (by omega) (by omega)
      omega) m).1 i hi
    rw [Int.one_mul, Int.zero_add] at h
    exact h

/-- **C27.** `R` ranks, each with a buffer of `L` packed values, element `i` of rank `r` being the accumulated sum
of `data r i`. However the reduction proceeds (any sequence of messages between ranks, any segments, either
operand first), as soon as rank `root` alone holds element `i`, that element has the bits of the sequential sum
of the `i`-th data of all ranks. -/
theorem C27_reduce [F.OK] {fold : Nat} (hfold : 2 ≤ fold) {R L : Nat} {buf : Nat → Mem} (data : Nat → Nat → List Flt)
    (hbuf : ∀ r < R, ∀ i < L, view fold (packed fold (i * dbnum fold)) (buf r) = F.sumSeq fold (data r i) (dmsetzero fold))
    {s : Mpi} (hr : MpiRun (F.mpiAdd fold) R L (Mpi.start R L buf) s) {i : Nat} (hi : i < L)
    {root : Nat} (hroot : root < R) (hdone : ∀ r < R, s.live r i = true ↔ r = root)
    (hx : ∀ r < R, ∀ x ∈ data r i, F.Finite x)
    (hN : ((List.range R).flatMap (fun r => data r i)).length ≤ F.capacity) :
    view fold (packed fold (i * dbnum fold)) (s.buf root) =
      F.sumSeq fold ((List.range R).flatMap (fun r => data r i)) (dmsetzero fold) := by
  obtain ⟨t, ht, h⟩ := mpi_done (mpiAdd_sound (F := F) (by omega : 1 ≤ fold)) hr hi hroot hdone
  refine h.trans ?_
  rw [← C27_any_tree hfold (fun r => data r i) t ht hx hN]
  have : ∀ t : RTree, (∀ r ∈ t.ranks, r < R) →
      t.eval (F.dmdmadd fold) (fun r => lookD fold (i * (F.mpiAdd fold).words) (buf r)) =
      t.eval (F.dmdmadd fold) (fun r => F.sumSeq fold (data r i) (dmsetzero fold)) := by
    intro t
    induction t with
    | rank r => intro h; exact hbuf r (h r (by simp [RTree.ranks])) i hi
    | node l r ihl ihr =>
      intro h
      show F.dmdmadd fold _ _ = F.dmdmadd fold _ _
      rw [ihl (fun a ha => h a (by simp [RTree.ranks, ha])), ihr (fun a ha => h a (by simp [RTree.ranks, ha]))]
  exact this t (fun r hr => List.mem_range.1 (ht.mem_iff.1 hr))

/-! ### Infinities and NaN -/

theorem ofList_legalX (xs : List Flt) {h : Hist} (hl : h.LegalX F) : (Hist.ofList xs h).LegalX F := by
  unfold Hist.ofList
  induction xs generalizing h with
  | nil => exact hl
  | cons x xs ih => exact ih (h := .add x h) hl

theorem Tree.toHist_legalX : ∀ t : Tree, t.toHist.LegalX F
  | leaf xs => ofList_legalX xs trivial
  | node l r => ⟨toHist_legalX l, toHist_legalX r⟩

/-- **C13** for reduction trees: any tree over any numbers, infinities and NaN included, converts to what the
sequential sum of its numbers converts to: both are NaN or they have the same bits. -/
theorem C13_reduction_tree [F.OK] {fold : Nat} (hfold : 2 ≤ fold) (t : Tree) {xs : List Flt} (hp : t.nums.Perm xs)
    (hN : xs.length ≤ F.capacity) :
    (F.isNaN (convert F fold (t.eval F fold)) = true ∧
     F.isNaN (convert F fold (F.sumSeq fold xs (dmsetzero fold))) = true) ∨
    convert F fold (t.eval F fold) = convert F fold (F.sumSeq fold xs (dmsetzero fold)) := by
  have k1 := hist_kind (F := F) hfold _ t.toHist_legalX (by rw [t.toHist_nums.length_eq, hp.length_eq]; exact hN)
  rw [t.toHist_eval, kinds_perm t.toHist_nums, kinds_perm hp] at k1
  have k2 := hist_kind (F := F) hfold _ (Tree.leaf xs).toHist_legalX (by rw [(Tree.leaf xs).toHist_nums.length_eq]; exact hN)
  rw [(Tree.leaf xs).toHist_eval, kinds_perm (Tree.leaf xs).toHist_nums] at k2
  have k2 : F.kind (nth (F.sumSeq fold xs (dmsetzero fold)).pri 0) = F.kinds xs := k2
  cases hh : F.kinds xs with
  | fin => right; rw [C02_reduction_tree hfold t hp (kinds_fin.1 hh) hN]
  | nan =>
    left
    rw [hh] at k1 k2
    rw [convert_special (by rw [k1]; simp), convert_special (by rw [k2]; simp)]
    exact ⟨kind_nan.1 k1, kind_nan.1 k2⟩
  | inf s =>
    right
    rw [hh] at k1 k2
    rw [convert_special (by rw [k1]; simp), convert_special (by rw [k2]; simp), kind_inf.1 k1, kind_inf.1 k2]

theorem RTree.eval_congr {V : Type} {merge : V → V → V} {f g : Nat → V} {R : Nat} (h : ∀ r < R, f r = g r) :
    ∀ t : RTree, (∀ r ∈ t.ranks, r < R) → t.eval merge f = t.eval merge g
  | rank r, ht => h r (ht r (by simp [ranks]))
  | node l r, ht => by
    show merge _ _ = merge _ _
    rw [eval_congr h l (fun a ha => ht a (by simp [ranks, ha])), eval_congr h r (fun a ha => ht a (by simp [ranks, ha]))]

/-- **C27** without the assumption that the data are finite: the converted result is that of the sequential sum
(both NaN, or the same bits). -/
theorem C27_reduce_special [F.OK] {fold : Nat} (hfold : 2 ≤ fold) {R L : Nat} {buf : Nat → Mem} (data : Nat → Nat → List Flt)
    (hbuf : ∀ r < R, ∀ i < L, view fold (packed fold (i * dbnum fold)) (buf r) = F.sumSeq fold (data r i) (dmsetzero fold))
    {s : Mpi} (hr : MpiRun (F.mpiAdd fold) R L (Mpi.start R L buf) s) {i : Nat} (hi : i < L)
    {root : Nat} (hroot : root < R) (hdone : ∀ r < R, s.live r i = true ↔ r = root)
    (hN : ((List.range R).flatMap (fun r => data r i)).length ≤ F.capacity) :
    let got := F.convertM fold (packed fold (i * dbnum fold)) (s.buf root)
    let want := convert F fold (F.sumSeq fold ((List.range R).flatMap (fun r => data r i)) (dmsetzero fold))
    (F.isNaN got = true ∧ F.isNaN want = true) ∨ got = want := by
  intro got want
  obtain ⟨t, ht, h⟩ := mpi_done (mpiAdd_sound (F := F) (by omega : 1 ≤ fold)) hr hi hroot hdone
  have e : view fold (packed fold (i * dbnum fold)) (s.buf root) = (t.toTree (fun r => data r i)).eval F fold := by
    refine h.trans ?_
    rw [RTree.toTree_eval]
    exact RTree.eval_congr (fun r hr => hbuf r hr i hi) t (fun r hr => List.mem_range.1 (ht.mem_iff.1 hr))
  have hgot : got = convert F fold ((t.toTree (fun r => data r i)).eval F fold) := by
    show F.convertM _ _ _ = _
    rw [C31_convert hfold, e]
  rw [hgot]
  exact C13_reduction_tree hfold _ (by rw [RTree.toTree_nums]; exact ht.flatMap_right _) hN

/-! ## C43: complex values -/

/-- Element of a buffer of packed complex values: its real and imaginary part. -/
def lookZ (fold : Nat) (a : Int) (m : Mem) : Binned × Binned := cview fold (zpacked fold a) m

theorem lookZ_local {fold : Nat} (a b : Int) (m m' : Mem) (h : ∀ d, 0 ≤ d → d < zbnum fold → m (a + d) = m' (b + d)) :
    lookZ fold a m = lookZ fold b m' := by
  unfold lookZ cview view zpacked Loc.re Loc.im Loc.P Loc.C
  dsimp only
  have hd : zbnum fold = 4 * fold := rfl
  have k : ∀ (c d : Int), c - a = d - b → 0 ≤ c - a → c - a < zbnum fold → m c = m' d := by
    intro c d h1 h2 h3
    have := h (c - a) h2 h3
    rw [show a + (c - a) = c by omega, show b + (c - a) = d by omega] at this
    exact this
  congr 1 <;> congr 1 <;> apply List.map_congr_left <;> intro i hi <;> rw [List.mem_range] at hi <;> apply k <;> omega

theorem mpiCAdd_sound {fold : Nat} (hfold : 1 ≤ fold) : (F.mpiCAdd fold).Sound (lookZ fold)
    (fun x y => (F.dmdmadd fold x.1 y.1, F.dmdmadd fold x.2 y.2)) where
  pos := by show 0 < zbnum fold; unfold zbnum; omega
  local_ := lookZ_local
  op := by
    intro len m i hi
    show lookZ fold (len * zbnum fold + i * zbnum fold) (F.zbzbaddvM fold len 0 1 (len * zbnum fold) 1 m) = _
    have hd : 0 < zbnum fold := by unfold zbnum; omega
    have h := (C35_zaddv (F := F) hfold len 0 1 (len * zbnum fold) 1 (by decide) (by
      intro i hi j hj a h1 h2
      rw [zpacked_in, Int.one_mul] at h1 h2
      have h3 := seg_lt (d := zbnum fold - 1) hi hd (by omega) (by omega)
      have h4 := seg_lt (d := 0) hj hd (by omega) (by omega)
      omega) m).1 i hi
    rw [Int.one_mul, Int.zero_add] at h
    exact h

theorem RTree.eval_pair {V W : Type} {f : V → V → V} {g : W → W → W} (init : Nat → V × W) : ∀ t : RTree,
    t.eval (fun x y => (f x.1 y.1, g x.2 y.2)) init = (t.eval f (fun r => (init r).1), t.eval g (fun r => (init r).2))
  | rank r => rfl
  | node l r => by
    show ((f _ _, g _ _) : V × W) = (f _ _, g _ _)
    rw [eval_pair init l, eval_pair init r]

/-- **C43**, the operation on single precision complex values (`binnedMPI_CBCBADD`; stated for every format): real and
imaginary parts of every element get the bits of the sequential sums, for every course of the reduction. Missing:
the operation on double precision complex values, for which this is false (`C43_violated`). -/
theorem C43_complex_reduce_partial [F.OK] {fold : Nat} (hfold : 2 ≤ fold) {R L : Nat} {buf : Nat → Mem} (dataR dataI : Nat → Nat → List Flt)
    (hbuf : ∀ r < R, ∀ i < L, cview fold (zpacked fold (i * zbnum fold)) (buf r) =
      (F.sumSeq fold (dataR r i) (dmsetzero fold), F.sumSeq fold (dataI r i) (dmsetzero fold)))
    {s : Mpi} (hr : MpiRun (F.mpiCAdd fold) R L (Mpi.start R L buf) s) {i : Nat} (hi : i < L)
    {root : Nat} (hroot : root < R) (hdone : ∀ r < R, s.live r i = true ↔ r = root)
    (hxR : ∀ r < R, ∀ x ∈ dataR r i, F.Finite x) (hxI : ∀ r < R, ∀ x ∈ dataI r i, F.Finite x)
    (hNR : ((List.range R).flatMap (fun r => dataR r i)).length ≤ F.capacity)
    (hNI : ((List.range R).flatMap (fun r => dataI r i)).length ≤ F.capacity) :
    cview fold (zpacked fold (i * zbnum fold)) (s.buf root) =
      (F.sumSeq fold ((List.range R).flatMap (fun r => dataR r i)) (dmsetzero fold),
       F.sumSeq fold ((List.range R).flatMap (fun r => dataI r i)) (dmsetzero fold)) := by
  obtain ⟨t, ht, h⟩ := mpi_done (mpiCAdd_sound (F := F) (by omega : 1 ≤ fold)) hr hi hroot hdone
  have h : cview fold (zpacked fold (i * zbnum fold)) (s.buf root) = _ := h
  rw [h, ← C27_any_tree hfold (fun r => dataR r i) t ht hxR hNR, ← C27_any_tree hfold (fun r => dataI r i) t ht hxI hNI, RTree.eval_pair]
  have hR : ∀ r ∈ t.ranks, r < R := fun r hr => List.mem_range.1 (ht.mem_iff.1 hr)
  congr 1
  · exact RTree.eval_congr (fun r hr => congrArg Prod.fst (hbuf r hr i hi)) t hR
  · exact RTree.eval_congr (fun r hr => congrArg Prod.snd (hbuf r hr i hi)) t hR

/-- Memory with the given words from address 0 on. -/
def memOf (l : List Flt) : Mem := fun a => if 0 ≤ a then nth l a.toNat else Fmt.zero

/-- The words of a packed value: primaries, then carries. -/
def Binned.words (y : Binned) : List Flt := y.pri ++ y.car

/-- The words of a packed complex value: interleaved primaries, then interleaved carries. -/
def zwords (x y : Binned) : List Flt :=
  (List.zip x.pri y.pri).flatMap (fun p => [p.1, p.2]) ++ (List.zip x.car y.car).flatMap (fun p => [p.1, p.2])

/-- Two ranks hold `1 + 2i` and `4 + 8i` in double precision with the default fold; after the only possible message
(rank 1 to rank 0) the real part of the result does not convert to 5, nor the imaginary part to 10. So the operation
returned by `binnedMPI_ZBZBADD` does not add complex values. -/
theorem C43_violated :
    let one := f64.pow2 0
    let buf : Nat → Mem := fun r =>
      if r = 0 then memOf (zwords (f64.dmdconv 3 one) (f64.dmdconv 3 (f64.pow2 1)))
      else memOf (zwords (f64.dmdconv 3 (f64.pow2 2)) (f64.dmdconv 3 (f64.pow2 3)))
    ∃ s : Mpi, MpiRun (f64.mpiZAdd 3) 2 1 (Mpi.start 2 1 buf) s ∧ (∀ r < 2, s.live r 0 = true ↔ r = 0) ∧
      cview 3 (zpacked 3 0) (buf 0) = (f64.sumSeq 3 [one] (dmsetzero 3), f64.sumSeq 3 [f64.pow2 1] (dmsetzero 3)) ∧
      cview 3 (zpacked 3 0) (buf 1) = (f64.sumSeq 3 [f64.pow2 2] (dmsetzero 3), f64.sumSeq 3 [f64.pow2 3] (dmsetzero 3)) ∧
      convert f64 3 (f64.sumSeq 3 [one, f64.pow2 2] (dmsetzero 3)) = f64.ofInt 5 ∧
      f64.convertM 3 (zpacked 3 0).re (s.buf 0) ≠ f64.ofInt 5 ∧
      f64.convertM 3 (zpacked 3 0).im (s.buf 0) ≠ f64.ofInt 10 := by
  intro one buf
  refine ⟨_, .step (.start _) (.message _ 1 0 0 1 true (by decide) (by decide) (by decide) (by decide) (by decide)), ?_, ?_⟩
  · decide
  · decide +kernel

/-- A case of `C27_reduce`: three ranks, two elements each, reduced in three messages with different segments and
operand orders; the hypotheses hold and the messages lead to a state in which rank 1 holds both results. -/
example :
    let data : Nat → Nat → List Flt := fun r i => [f32.pow2 (7 * r), fneg (f32.pow2 (3 * i))]
    let buf : Nat → Mem := fun r => memOf ((f32.sumSeq 2 (data r 0) (dmsetzero 2)).words ++ (f32.sumSeq 2 (data r 1) (dmsetzero 2)).words)
    (∀ r < 3, ∀ i : Nat, i < 2 → view 2 (packed 2 ((i : Int) * dbnum 2)) (buf r) = f32.sumSeq 2 (data r i) (dmsetzero 2)) ∧
    (∃ s : Mpi, MpiRun (f32.mpiAdd 2) 3 2 (Mpi.start 3 2 buf) s ∧ ∀ i : Nat, i < 2 → ∀ r < 3, s.live r i = true ↔ r = 1) ∧
    (∀ i : Nat, i < 2 → ∀ r < 3, ∀ x ∈ data r i, f32.Finite x) := by
  refine ⟨by decide +kernel, ⟨_, .step (.step (.step (.start _)
    (.message _ 0 2 0 1 true (by decide) (by decide) (by decide) (by decide) (by decide)))
    (.message _ 2 1 0 2 false (by decide) (by decide) (by decide) (by decide) (by decide)))
    (.message _ 0 1 1 1 true (by decide) (by decide) (by decide) (by decide) (by decide)), by decide⟩, by decide +kernel⟩

/-! ## C44: operation handles -/

/-- `l[i]` -/
def nthN (l : List Nat) (i : Nat) : Nat := l.getD i 0

/-- The cache after any requests for supported folds. -/
structure OpCache.Inv (maxIndex : Nat) (c : OpCache) : Prop where
  fn : ∀ f, c.initialized f = true → c.fn (c.ops f) = some f ∧ 1 ≤ c.ops f ∧ c.ops f ≤ c.created.length
  cre : ∀ f, f ∈ c.created ↔ c.initialized f = true
  nodup : c.created.Nodup
  supp : ∀ f ∈ c.created, 2 ≤ f ∧ f ≤ maxIndex

theorem OpCache.inv_empty (maxIndex : Nat) : OpCache.Inv maxIndex .empty :=
  ⟨fun f h => by simp [OpCache.empty] at h, fun f => by simp [OpCache.empty], by simp [OpCache.empty], by simp [OpCache.empty]⟩

theorem OpCache.inv_get {maxIndex : Nat} {c : OpCache} (hc : c.Inv maxIndex) (junk : Bool) {f : Nat} (hf : 2 ≤ f ∧ f ≤ maxIndex) :
    ∃ h c', c.get maxIndex junk f = some (h, c') ∧ c'.Inv maxIndex ∧ c'.initialized f = true ∧ c'.ops f = h ∧
      (∀ g, c.initialized g = true → c'.initialized g = true ∧ c'.ops g = c.ops g) ∧
      (c.initialized f = true → c' = c) := by
  unfold OpCache.get
  by_cases hi : c.initialized f = true
  · exact ⟨_, _, by rw [if_pos hi], hc, hi, rfl, fun g hg => ⟨hg, rfl⟩, fun _ => rfl⟩
  · refine ⟨_, _, by rw [if_neg hi, if_pos hf], ?_, by simp, by simp, ?_, fun h => absurd h hi⟩
    · constructor
      · intro g hg
        dsimp only at hg ⊢
        unfold OpCache.fn
        dsimp only
        by_cases hgf : g = f
        · subst hgf
          simp
        · rw [if_neg hgf] at hg ⊢
          obtain ⟨h1, h2, h3⟩ := hc.fn g hg
          unfold OpCache.fn at h1
          rw [if_neg (by omega)] at h1 ⊢
          refine ⟨?_, h2, by simp; omega⟩
          rw [List.getElem?_append_left (by omega)]; exact h1
      · intro g
        dsimp only
        by_cases hgf : g = f
        · simp [hgf]
        · simp [hgf, hc.cre g]
      · dsimp only
        rw [List.nodup_append]
        refine ⟨hc.nodup, by simp, ?_⟩
        intro a ha b hb
        simp only [List.mem_singleton] at hb
        subst hb
        rintro rfl
        exact hi ((hc.cre a).1 ha)
      · intro g hg
        simp only [List.mem_append, List.mem_singleton] at hg
        rcases hg with h | rfl
        · exact hc.supp g h
        · exact hf
    · intro g hg
      dsimp only
      by_cases hgf : g = f
      · subst hgf; exact absurd hg hi
      · simp [hgf, hg]

/-- **C44.** For every sequence of requests for supported folds: each returned handle stands for the reduction
function of the fold asked for, equal folds get equal handles (and different folds different ones), and one operation
is created per distinct fold. -/
theorem C44_handles (maxIndex : Nat) (fs : List Nat) (hf : ∀ f ∈ fs, 2 ≤ f ∧ f ≤ maxIndex) :
    ∃ hs c, OpCache.gets maxIndex .empty fs = some (hs, c) ∧ hs.length = fs.length ∧
      (∀ i < fs.length, c.fn (nthN hs i) = some (nthN fs i)) ∧
      (∀ i < fs.length, ∀ j < fs.length, nthN hs i = nthN hs j ↔ nthN fs i = nthN fs j) ∧
      c.created.Nodup ∧ (∀ f, f ∈ c.created ↔ f ∈ fs) := by
  suffices H : ∀ (fs : List Nat) (c : OpCache), c.Inv maxIndex → (∀ f ∈ fs, 2 ≤ f ∧ f ≤ maxIndex) →
      ∃ hs c', OpCache.gets maxIndex c fs = some (hs, c') ∧ c'.Inv maxIndex ∧ hs = fs.map c'.ops ∧
        (∀ g, c.initialized g = true → c'.initialized g = true ∧ c'.ops g = c.ops g) ∧
        (∀ f, c'.initialized f = true ↔ c.initialized f = true ∨ f ∈ fs) by
    obtain ⟨hs, c, h1, h2, h3, _, h5⟩ := H fs .empty (OpCache.inv_empty _) hf
    have hin : ∀ f ∈ fs, c.initialized f = true := fun f h => (h5 f).2 (Or.inr h)
    have e : ∀ i < fs.length, nthN hs i = c.ops (nthN fs i) := by
      intro i hi
      simp [nthN, h3, hi]
    have m : ∀ i < fs.length, nthN fs i ∈ fs := by
      intro i hi
      simp [nthN, hi]
    refine ⟨hs, c, h1, by simp [h3], ?_, ?_, h2.nodup, ?_⟩
    · intro i hi
      rw [e i hi]; exact (h2.fn _ (hin _ (m i hi))).1
    · intro i hi j hj
      rw [e i hi, e j hj]
      refine ⟨fun h => ?_, fun h => by rw [h]⟩
      have h6 := (h2.fn _ (hin _ (m i hi))).1
      have h7 := (h2.fn _ (hin _ (m j hj))).1
      rw [h, h7] at h6
      exact (Option.some.inj h6).symm
    · intro f
      rw [h2.cre, h5]
      simp [OpCache.empty]
  intro fs
  induction fs with
  | nil => intro c hc _; exact ⟨[], c, rfl, hc, rfl, fun g hg => ⟨hg, rfl⟩, fun f => by simp⟩
  | cons f fs ih =>
    intro c hc hfs
    obtain ⟨h, c1, g1, g2, g3, g4, g5, g6⟩ := OpCache.inv_get hc true (hfs f (by simp))
    obtain ⟨hs, c2, k1, k2, k3, k4, k5⟩ := ih c1 g2 (fun x hx => hfs x (by simp [hx]))
    refine ⟨h :: hs, c2, ?_, k2, ?_, ?_, ?_⟩
    · unfold OpCache.gets
      rw [g1]
      simp only [Option.bind_eq_bind, Option.bind_some]
      rw [k1]; rfl
    · rw [List.map_cons, (k4 f g3).2, g4, k3]
    · intro g hg
      have := g5 g hg
      have h' := k4 g this.1
      exact ⟨h'.1, h'.2.trans this.2⟩
    · intro x
      rw [k5 x]
      constructor
      · rintro (h' | h')
        · by_cases hx : c.initialized x = true
          · exact Or.inl hx
          · right
            -- the only fold that became initialised is `f`
            have : x = f := by
              apply Decidable.byContradiction
              intro hne
              unfold OpCache.get at g1
              by_cases hi : c.initialized f = true
              · rw [if_pos hi] at g1
                simp only [Option.some.injEq, Prod.mk.injEq] at g1
                rw [← g1.2] at h'; exact hx h'
              · rw [if_neg hi, if_pos (hfs f (by simp))] at g1
                simp only [Option.some.injEq, Prod.mk.injEq] at g1
                rw [← g1.2] at h'
                simp [hne] at h'
                exact hx h'
            simp [this]
        · simp [h']
      · rintro (h' | h')
        · exact Or.inl (g5 x h').1
        · rcases List.mem_cons.1 h' with rfl | h'
          · exact Or.inl g3
          · exact Or.inr h'

/-- The largest fold the library supports elsewhere, `maxIndex + 1`, has no operation: either the program is aborted or a
handle is returned that stands for no function, depending on an uninitialised variable. -/
theorem C44_largest_fold_violated (maxIndex : Nat) :
    OpCache.get maxIndex .empty false (maxIndex + 1) = none ∧
    ∃ h c, OpCache.get maxIndex .empty true (maxIndex + 1) = some (h, c) ∧ c.fn h = none := by
  refine ⟨by simp [OpCache.get, OpCache.empty], 0, ⟨fun f => if f = maxIndex + 1 then true else false, fun _ => 0, []⟩, ?_, ?_⟩
  · simp [OpCache.get, OpCache.empty]
  · simp [OpCache.fn]

example : ∀ f ∈ [3, 2, 3, 51], 2 ≤ f ∧ f ≤ f64.maxIndex := by decide

end Repro

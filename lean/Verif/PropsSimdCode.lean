import Verif.PropsSimdRun
/-!
# C65: every statement of a generated vector kernel has a shape the machine executes faithfully
-/

namespace Repro
open Fmt

variable {F : Fmt} {L : Nat}

/-- All expressions of a list are vectors. -/
def VL (F : Fmt) (L : Nat) (l : List Ex) : Prop := ∀ e ∈ l, e.V F L

/-- All variables of a list are registers. -/
def NS (l : List Var) : Prop := ∀ v ∈ l, v.scalar = false

/-- All statements of a list are executed faithfully. -/
def CodeOk (F : Fmt) (L : Nat) (c : Code) : Prop := ∀ s ∈ c, StmtOk F L s

theorem CodeOk.nil : CodeOk F L [] := fun _ h => nomatch h

theorem CodeOk.append {a b : Code} (ha : CodeOk F L a) (hb : CodeOk F L b) : CodeOk F L (a ++ b) := fun s h =>
  (List.mem_append.mp h).elim (ha s) (hb s)

theorem CodeOk.flatMap {α : Type} {l : List α} {f : α → Code} (h : ∀ a ∈ l, CodeOk F L (f a)) : CodeOk F L (l.flatMap f) := fun s hs => by
  obtain ⟨a, ha, hs⟩ := List.mem_flatMap.mp hs
  exact h a ha s hs

theorem CodeOk.ite {p : Prop} [Decidable p] {a b : Code} (ha : CodeOk F L a) (hb : CodeOk F L b) : CodeOk F L (if p then a else b) := by
  split <;> assumption

theorem ok_vec {v : Var} {e : Ex} (hv : v.scalar = false) (he : e.V F L) : StmtOk F L (v, e) := by
  unfold StmtOk
  rw [hv]
  exact he

theorem ok_sc {v : Var} {e : Ex} (hv : v.scalar = true) (he : e.S F L) : StmtOk F L (v, e) := by
  unfold StmtOk
  rw [hv]
  exact he

theorem setEqual_ok : ∀ {dst : List Var} {src : List Ex}, NS dst → VL F L src → CodeOk F L (setEqual dst src)
  | [], _, _, _ => fun _ h => by simp [setEqual] at h
  | _ :: _, [], _, _ => fun _ h => by simp [setEqual] at h
  | d :: dst, e :: src, hd, he => by
    intro s hs
    unfold setEqual at hs
    rw [List.zipWith_cons_cons, List.mem_cons] at hs
    rcases hs with rfl | hs
    · exact ok_vec (hd d List.mem_cons_self) (he e List.mem_cons_self)
    · exact setEqual_ok (fun v hv => hd v (List.mem_cons_of_mem _ hv)) (fun v hv => he v (List.mem_cons_of_mem _ hv)) s hs

theorem zipWith_ok {f : Ex → Ex → Ex} (hf : ∀ a b : Ex, a.V F L → b.V F L → (f a b).V F L) :
    ∀ {a b : List Ex}, VL F L a → VL F L b → VL F L (List.zipWith f a b)
  | [], _, _, _ => fun _ h => by simp at h
  | _ :: _, [], _, _ => fun _ h => by simp at h
  | x :: a, y :: b, ha, hb => by
    intro e he
    rw [List.zipWith_cons_cons, List.mem_cons] at he
    rcases he with rfl | he
    · exact hf _ _ (ha x List.mem_cons_self) (hb y List.mem_cons_self)
    · exact zipWith_ok hf (fun v hv => ha v (List.mem_cons_of_mem _ hv)) (fun v hv => hb v (List.mem_cons_of_mem _ hv)) e he

theorem vadd_ok {a b : List Ex} : VL F L a → VL F L b → VL F L (vadd a b) := zipWith_ok (f := .add) (fun _ _ h1 h2 => ⟨h1, h2⟩)
theorem vsub_ok {a b : List Ex} : VL F L a → VL F L b → VL F L (vsub a b) := zipWith_ok (f := .sub) (fun _ _ h1 h2 => ⟨h1, h2⟩)
theorem vmul_ok {a b : List Ex} : VL F L a → VL F L b → VL F L (vmul a b) := zipWith_ok (f := .mul) (fun _ _ h1 h2 => ⟨h1, h2⟩)
theorem vmax_ok {a b : List Ex} : VL F L a → VL F L b → VL F L (vmax a b) := zipWith_ok (f := .max) (fun _ _ h1 h2 => ⟨h1, h2⟩)

theorem ev_ok {l : List Var} (h : NS l) : VL F L (ev l) := fun e he => by
  obtain ⟨v, hv, rfl⟩ := List.mem_map.mp he
  exact h v hv

theorem map_ok {f : Ex → Ex} (hf : ∀ a : Ex, a.V F L → (f a).V F L) {l : List Ex} (h : VL F L l) : VL F L (l.map f) := fun e he => by
  obtain ⟨a, ha, rfl⟩ := List.mem_map.mp he
  exact hf a (h a ha)

theorem getD_mem {α : Type} (l : List α) (i : Nat) (d : α) : l.getD i d ∈ l ∨ l.getD i d = d := by
  rw [List.getD_eq_getElem?_getD]
  by_cases h : i < l.length
  · rw [List.getElem?_eq_getElem h]
    exact Or.inl (List.getElem_mem h)
  · rw [List.getElem?_eq_none (by omega)]
    exact Or.inr rfl

theorem getD_V {l : List Ex} (h : VL F L l) (i : Nat) : (l.getD i default).V F L := by
  rcases getD_mem l i default with hm | hm
  · exact h _ hm
  · rw [hm]; rfl

theorem getD_NS {l : List Var} (h : NS l) (i : Nat) : (l.getD i default).scalar = false := by
  rcases getD_mem l i default with hm | hm
  · exact h _ hm
  · rw [hm]; rfl

theorem cycle_ok {l : List Ex} (h : VL F L l) (n : Nat) : VL F L (cycleTo l n) := fun e he => by
  obtain ⟨i, _, rfl⟩ := List.mem_map.mp he
  exact getD_V h _

theorem cycle_ns {l : List Var} (h : NS l) (n : Nat) : NS (cycleTo l n) := fun e he => by
  obtain ⟨i, _, rfl⟩ := List.mem_map.mp he
  exact getD_NS h _

theorem vmulC_ok {a : List Ex} {c : List Var} (ha : VL F L a) (hc : NS c) : VL F L (vmulC a c) := vmul_ok ha (cycle_ok (ev_ok hc) _)

theorem addBlp_ok {dst src : List Var} {blp : List Ex} (hd : NS dst) (hs : NS src) (hb : VL F L blp) (w : Nat) : CodeOk F L (addBlp dst src blp w) := fun s h => by
  obtain ⟨i, _, rfl⟩ := List.mem_map.mp h
  exact ok_vec (getD_NS hd i) ⟨getD_NS hs i, getD_V hb i⟩

theorem NS.take {l : List Var} (h : NS l) (n : Nat) : NS (l.take n) := fun v hv => h v (List.mem_of_mem_take hv)
theorem NS.drop {l : List Var} (h : NS l) (n : Nat) : NS (l.drop n) := fun v hv => h v (List.mem_of_mem_drop hv)

theorem map_ns {f : Nat → Var} (hf : ∀ i, (f i).scalar = false) (l : List Nat) : NS (l.map f) := fun v hv => by
  obtain ⟨i, _, rfl⟩ := List.mem_map.mp hv
  exact hf i

theorem cst_list {l : List Flt} (h : ∀ c ∈ l, F.Bits c) : VL F L (l.map .cst) := fun e he => by
  obtain ⟨c, hc, rfl⟩ := List.mem_map.mp he
  exact h c hc

namespace Gen
variable {G : Gen}

theorem xv_ns : NS G.xv := map_ns (fun _ => rfl) _
theorem zv_ns : NS G.zv := map_ns (fun _ => rfl) _
theorem qv_ns : NS G.qv := map_ns (fun _ => rfl) _
theorem sv_ns (j : Nat) : NS (G.sv j) := map_ns (fun _ => rfl) _
theorem bufv_ns (j : Nat) : NS (G.bufv j) := map_ns (fun _ => rfl) _
theorem compv_ns : NS G.compv := map_ns (fun _ => rfl) _
theorem expnv_ns : NS G.expnv := map_ns (fun _ => rfl) _
theorem maskv_ns : NS G.maskv := map_ns (fun _ => rfl) _
theorem accv_ns (expand : Bool) (j : Nat) : NS (G.accv expand j) := by
  unfold accv
  split
  · exact sv_ns j
  · exact bufv_ns j

theorem loadC_ok (p : Nat) (inc : Int) (c : Chunk) (hG : G.T.simd = true) : VL F L (G.loadC p inc c) := by
  unfold loadC load loadPartial
  rw [if_pos hG]
  intro e he
  split at he
  · rw [List.mem_singleton] at he
    subst he
    trivial
  · obtain ⟨i, _, rfl⟩ := List.mem_map.mp he
    split <;> trivial

section
variable (hG : G.T.simd = true)
include hG

theorem swapP_ok {l : List Ex} (h : VL F L l) : VL F L (G.swapP l) := by
  unfold swapP
  rw [if_pos hG]
  exact map_ok (f := .swap) (fun _ h => h) h

theorem repE_ok {l : List Ex} (h : VL F L l) : VL F L (G.repE l) := by
  unfold repE
  rw [if_pos hG]
  exact map_ok (f := .evens) (fun _ h => h) h

theorem repO_ok {l : List Ex} (h : VL F L l) : VL F L (G.repO l) := by
  unfold repO
  rw [if_pos hG]
  exact map_ok (f := .odds) (fun _ h => h) h

theorem conj_ok {l : List Ex} (h : VL F L l) : VL F L (G.conj F l) := by
  unfold conj
  rw [if_pos hG]
  exact map_ok (f := .flipO) (fun _ h => h) h

theorem nconj_ok {l : List Ex} (h : VL F L l) : VL F L (G.nconj F l) := by
  unfold nconj
  rw [if_pos hG]
  exact map_ok (f := .flipE) (fun _ h => h) h

theorem preprocess_ok (hop : ∀ inv, G.op = .ssq inv → F.Bits inv) (incX incZ : Int) (c : Chunk) : CodeOk F L (G.preprocess F incX incZ c) := by
  have hx := fun p inc => loadC_ok (F := F) (L := L) p inc c hG
  unfold preprocess
  dsimp only
  split
  · exact setEqual_ok xv_ns (hx _ _)
  · exact setEqual_ok xv_ns (map_ok (f := .abs) (fun _ h => h) (hx _ _))
  · next inv he =>
    refine CodeOk.append (setEqual_ok xv_ns (vmul_ok (hx _ _) ?_)) (setEqual_ok xv_ns (vmul_ok (ev_ok xv_ns) (ev_ok (xv_ns.take _))))
    intro e he'
    rw [(List.mem_replicate.mp he').2]
    exact hop inv he
  · exact CodeOk.append (CodeOk.append (setEqual_ok xv_ns (hx _ _)) (setEqual_ok zv_ns (hx _ _)))
      (setEqual_ok xv_ns (vmul_ok (ev_ok xv_ns) (ev_ok (zv_ns.take _))))
  · exact CodeOk.append (CodeOk.append (CodeOk.append (setEqual_ok xv_ns (hx _ _)) (setEqual_ok zv_ns (hx _ _)))
      (setEqual_ok ((xv_ns.take _).drop _) (nconj_ok hG (vmul_ok (swapP_ok hG (ev_ok xv_ns)) (repO_ok hG (ev_ok zv_ns))))))
      (setEqual_ok (xv_ns.take _) (vmul_ok (ev_ok xv_ns) (repE_ok hG (ev_ok zv_ns))))
  · exact CodeOk.append (CodeOk.append (CodeOk.append (setEqual_ok xv_ns (hx _ _)) (setEqual_ok zv_ns (hx _ _)))
      (setEqual_ok ((xv_ns.take _).drop _) (vmul_ok (swapP_ok hG (ev_ok xv_ns)) (repO_ok hG (ev_ok zv_ns)))))
      (setEqual_ok (xv_ns.take _) (conj_ok hG (vmul_ok (ev_ok xv_ns) (repE_ok hG (ev_ok zv_ns)))))

end

theorem level_ok (w i j : Nat) : CodeOk F L (G.level w i j) :=
  CodeOk.append (CodeOk.append (CodeOk.append (setEqual_ok qv_ns (ev_ok ((sv_ns j).take _)))
    (addBlp_ok (sv_ns j) (sv_ns j) (ev_ok (xv_ns.drop _)) w))
    (setEqual_ok qv_ns (vsub_ok (ev_ok qv_ns) (ev_ok ((sv_ns j).take _)))))
    (setEqual_ok (xv_ns.drop _) (vadd_ok (ev_ok (xv_ns.drop _)) (ev_ok (qv_ns.take _))))

theorem levelBuf_ok (w i j : Nat) : CodeOk F L (G.levelBuf w i j) :=
  CodeOk.append (CodeOk.append (CodeOk.append (CodeOk.append (setEqual_ok (sv_ns 0) (ev_ok ((bufv_ns j).take _)))
    (addBlp_ok qv_ns (sv_ns 0) (ev_ok (xv_ns.drop _)) w))
    (setEqual_ok (bufv_ns j) (ev_ok (qv_ns.take _))))
    (setEqual_ok qv_ns (vsub_ok (ev_ok (sv_ns 0)) (ev_ok (qv_ns.take _)))))
    (setEqual_ok (xv_ns.drop _) (vadd_ok (ev_ok (xv_ns.drop _)) (ev_ok (qv_ns.take _))))

theorem process_ok (expand : Bool) (fold w u : Nat) : CodeOk F L (G.process expand fold w u) :=
  CodeOk.flatMap (fun i _ => CodeOk.ite
    (CodeOk.append (CodeOk.flatMap (fun j _ => level_ok w i j)) (addBlp_ok (sv_ns _) (sv_ns _) (ev_ok (xv_ns.drop _)) w))
    (CodeOk.append (CodeOk.flatMap (fun j _ => levelBuf_ok w i j)) (addBlp_ok (bufv_ns _) (bufv_ns _) (ev_ok (xv_ns.drop _)) w)))

theorem level0_ok (expand : Bool) (w i : Nat) : CodeOk F L (G.level0 expand w i) := by
  have hl := ev_ok (F := F) (L := L) ((xv_ns (G := G)).drop (i * w))
  have hq := ev_ok (F := F) (L := L) ((qv_ns (G := G)).take w)
  have hq0 := ev_ok (F := F) (L := L) (qv_ns (G := G))
  have hs := ev_ok (F := F) (L := L) ((sv_ns (G := G) 0).take w)
  have hlv := (xv_ns (G := G)).drop (i * w)
  unfold level0
  refine CodeOk.ite (CodeOk.append (CodeOk.append (setEqual_ok qv_ns hs) (addBlp_ok (sv_ns 0) (sv_ns 0) (vmulC_ok hl compv_ns) w)) (CodeOk.ite ?_ ?_))
    (CodeOk.append (CodeOk.append (CodeOk.append (setEqual_ok (sv_ns 0) (ev_ok ((bufv_ns 0).take _))) (addBlp_ok qv_ns (sv_ns 0) (vmulC_ok hl compv_ns) w))
      (setEqual_ok (bufv_ns 0) hq)) (CodeOk.ite ?_ ?_))
  · exact CodeOk.append (setEqual_ok qv_ns (vsub_ok hq0 hs)) (setEqual_ok hlv (vadd_ok (vadd_ok hl (vmulC_ok hq expnv_ns)) (vmulC_ok hq maskv_ns)))
  · exact CodeOk.append (setEqual_ok qv_ns (vmulC_ok (vsub_ok hq0 hs) expnv_ns)) (setEqual_ok hlv (vadd_ok (vadd_ok hl hq) hq))
  · exact CodeOk.append (setEqual_ok qv_ns (vsub_ok (ev_ok (sv_ns 0)) hq)) (setEqual_ok hlv (vadd_ok (vadd_ok hl (vmulC_ok hq0 expnv_ns)) (vmulC_ok hq0 maskv_ns)))
  · exact CodeOk.append (setEqual_ok qv_ns (vmulC_ok (vsub_ok (ev_ok (sv_ns 0)) hq) expnv_ns)) (setEqual_ok hlv (vadd_ok (vadd_ok hl hq) hq))

theorem process0_ok (expand : Bool) (fold w u : Nat) : CodeOk F L (G.process0 expand fold w u) :=
  CodeOk.flatMap (fun i _ => CodeOk.append (level0_ok expand w i) (CodeOk.ite
    (CodeOk.append (CodeOk.flatMap (fun j _ => level_ok w i j)) (addBlp_ok (sv_ns _) (sv_ns _) (ev_ok (xv_ns.drop _)) w))
    (CodeOk.append (CodeOk.flatMap (fun j _ => levelBuf_ok w i j)) (addBlp_ok (bufv_ns _) (bufv_ns _) (ev_ok (xv_ns.drop _)) w))))

theorem body_ok (hG : G.T.simd = true) (hop : ∀ inv, G.op = .ssq inv → F.Bits inv) (incX incZ : Int) (idx0 expand : Bool) (fold : Nat) (c : Chunk) :
    CodeOk F L (G.body F incX incZ idx0 expand fold c) :=
  CodeOk.append (preprocess_ok hG hop incX incZ c) (CodeOk.ite (process0_ok _ _ _ _) (process_ok _ _ _ _))

theorem const_bits [F.OK] : F.Bits F.compression ∧ F.Bits F.halfExpansion ∧ F.Bits F.one ∧ F.Bits Fmt.zero := by
  rcases ‹F.OK›.isDoubleOrFloat with rfl | rfl <;> (unfold Bits; decide +kernel)

theorem factors_ok [F.OK] (hG : G.T.simd = true) (i0 i1 : Bool) : CodeOk F L (G.factors F i0 i1) := by
  have ⟨hc, hh, h1, hz⟩ := const_bits (F := F)
  have one : ∀ {c : Flt}, F.Bits c → VL F L [.cst c] := fun h e he => by rw [List.mem_singleton] at he; subst he; exact h
  have two : ∀ {a b : Flt}, F.Bits a → F.Bits b → VL F L (G.setRI a b) := fun ha hb e he => by
    unfold setRI at he
    rw [if_pos hG, List.mem_singleton] at he
    subst he
    exact ⟨ha, hb⟩
  have S := fun {v : List Var} {l : List Ex} (hv : NS v) (hl : VL F L l) => setEqual_ok (F := F) (L := L) hv (cycle_ok hl v.length)
  unfold factors
  dsimp only
  refine CodeOk.ite (CodeOk.ite (CodeOk.ite ?_ ?_) ?_) ?_
  · exact CodeOk.append (CodeOk.append (S compv_ns (one hc)) (S expnv_ns (one hh))) (S maskv_ns (one hh))
  · exact CodeOk.append (CodeOk.append (S compv_ns (two hc h1)) (S expnv_ns (two hh h1))) (S maskv_ns (two hh hz))
  · exact CodeOk.append (CodeOk.append (S compv_ns (two h1 hc)) (S expnv_ns (two h1 hh))) (S maskv_ns (two hz hh))
  · exact CodeOk.append (S compv_ns (one hc)) (S expnv_ns (one hh))

theorem y_S (k j : Nat) : (Ex.lane (.y k j) 0).S F L := rfl

theorem bcast_ok (j : Nat) : (G.bcast j).V F L := by
  unfold bcast
  split
  · exact ⟨y_S 0 j, y_S 1 j⟩
  · exact y_S 0 j

theorem propagate_ok (hG : G.T.simd = true) (j : Nat) {dst : List Var} (hd : NS dst) : CodeOk F L (G.propagate j dst) := by
  unfold propagate
  rw [if_pos hG]
  intro s hs
  obtain ⟨v, hv, rfl⟩ := List.mem_map.mp hs
  exact ok_vec (hd v hv) (bcast_ok j)

theorem simd_dims (hG : G.T.simd = true) : G.tsz = G.T.ts ∧ G.base = G.pw * G.T.ts := by
  unfold tsz base
  rw [if_pos hG]
  have : 0 < G.pw := by unfold pw; split <;> decide
  exact ⟨Nat.mul_div_cancel _ this, Nat.mul_comm _ _⟩

theorem consolidate_ok [F.OK] (hG : G.T.simd = true) (hts : 1 ≤ G.T.ts) (hL : G.base ≤ L) (j : Nat) {src : List Var} (hs : NS src) :
    CodeOk F L (G.consolidate j src) := by
  have ⟨ht, hb⟩ := simd_dims hG
  have h0 := getD_NS hs 0
  unfold consolidate
  dsimp only
  rw [if_pos hG]
  refine CodeOk.append (CodeOk.append (CodeOk.ite CodeOk.nil ?_) (CodeOk.ite ?_ CodeOk.nil)) ?_
  · intro s hm
    rw [List.mem_singleton] at hm
    subst hm
    refine ok_vec h0 ⟨h0, zero_bits _, ?_⟩
    unfold bcast
    split
    · next h => 
      split at h
      · cases h
        exact ⟨y_S 0 j, y_S 1 j⟩
      · cases h
    · next h =>
      split
      · next hc => rw [if_pos hc] at h; exact absurd rfl (h _ _)
      · exact y_S 0 j
  · intro s hm
    rcases List.mem_cons.mp hm with rfl | hm
    · exact ok_vec rfl (bcast_ok j)
    · obtain ⟨v, hv, rfl⟩ := List.mem_map.mp hm
      exact ok_vec h0 ⟨h0, hs.drop 1 v hv, rfl⟩
  · intro s hm
    obtain ⟨k, hk, rfl⟩ := List.mem_map.mp hm
    have hk := List.mem_range.mp hk
    refine ok_sc rfl ?_
    have hl : ∀ i, i < G.T.ts → (Ex.lane (src.getD 0 default) (G.pw * i + k)).S F L := fun i hi => by
      unfold Ex.S
      rw [if_neg (by rw [h0]; exact Bool.false_ne_true)]
      have : G.pw * (i + 1) ≤ G.pw * G.T.ts := Nat.mul_le_mul_left _ hi
      rw [Nat.mul_add, Nat.mul_one] at this
      omega
    have : ∀ (l : List Nat) (e : Ex), e.S F L → (∀ i ∈ l, i < G.T.ts) →
        (l.foldl (fun a i => Ex.add a (.lane (src.getD 0 default) (G.pw * i + k))) e).S F L := by
      intro l
      induction l with
      | nil => exact fun e he _ => he
      | cons i l ih => exact fun e he h => ih _ ⟨he, hl i (h i List.mem_cons_self)⟩ (fun i' hi' => h i' (List.mem_cons_of_mem _ hi'))
    refine this _ _ (by have := hl 0 hts; rwa [Nat.mul_zero, Nat.zero_add] at this) (fun i hi => ?_)
    rw [List.mem_range'_1] at hi
    omega

end Gen

end Repro

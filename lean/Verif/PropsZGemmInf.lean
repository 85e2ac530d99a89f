import Verif.ZBlocks
/-!
# C83: the parts of the entries of complex matrix products are independent; infinities and NaN stay in their entry and part
-/

namespace Repro
open Fmt
variable {F : Fmt} {α : Type}

/-- Two lists that agree up to order and the choice of NaN. -/
structure Alike (F : Fmt) (xs ts : List Flt) : Prop where
  kinds : F.kinds xs = F.kinds ts
  mem : ∀ x ∈ xs, F.Finite x → x ∈ ts
  perm : (∀ x ∈ ts, F.Finite x) → xs.Perm ts

theorem Alike.append {xs ts xs' ts' : List Flt} (h : Alike F xs ts) (h' : Alike F xs' ts') : Alike F (xs ++ xs') (ts ++ ts') where
  kinds := by rw [kinds_append, kinds_append, h.kinds, h'.kinds]
  mem x hx hf := by
    rcases List.mem_append.1 hx with hx | hx
    · exact List.mem_append_left _ (h.mem x hx hf)
    · exact List.mem_append_right _ (h'.mem x hx hf)
  perm hf := (h.perm fun x hx => hf x (List.mem_append_left _ hx)).append (h'.perm fun x hx => hf x (List.mem_append_right _ hx))

theorem Alike.flatMap {β : Type} {f g : β → List Flt} : ∀ {l : List β}, (∀ a ∈ l, Alike F (f a) (g a)) → Alike F (l.flatMap f) (l.flatMap g)
  | [], _ => ⟨rfl, fun _ h => (nomatch h), fun _ => List.Perm.refl _⟩
  | a :: l, h => by
    rw [List.flatMap_cons, List.flatMap_cons]
    exact (h a List.mem_cons_self).append (Alike.flatMap fun b hb => h b (List.mem_cons_of_mem _ hb))

theorem Alike.pair {a b c d : Flt} (h : SameVal F a c) (h' : SameVal F b d) : Alike F [a, b] [c, d] where
  kinds := by simp only [Fmt.kinds]; rw [h.kind, h'.kind]
  mem x hx hf := by
    rcases List.mem_cons.1 hx with rfl | hx
    · rw [h.fin hf]; exact List.mem_cons_self
    · rw [List.mem_singleton] at hx; subst hx
      rw [h'.fin hf]; simp
  perm hf := by
    have e1 := SameVal.fin (F := F) (x := c) (y := a) (by rcases h with h | ⟨h1, h2⟩; exacts [Or.inl h.symm, Or.inr ⟨h2, h1⟩]) (hf c (by simp))
    have e2 := SameVal.fin (F := F) (x := d) (y := b) (by rcases h' with h | ⟨h1, h2⟩; exacts [Or.inl h.symm, Or.inr ⟨h2, h1⟩]) (hf d (by simp))
    rw [e1, e2]

theorem Alike.pair_swap {a b c d : Flt} (h : SameVal F a d) (h' : SameVal F b c) : Alike F [a, b] [c, d] := by
  have := Alike.pair h h'
  refine ⟨this.kinds.trans ?_, fun x hx hf => ?_, fun hf => ?_⟩
  · simp only [Fmt.kinds, Kind.add_fin]; exact Kind.add_comm _ _
  · have := this.mem x hx hf
    simp only [List.mem_cons, List.not_mem_nil, or_false] at this ⊢
    exact this.symm
  · exact (this.perm fun x hx => hf x (by simp only [List.mem_cons, List.not_mem_nil, or_false] at hx ⊢; exact hx.symm)).trans (List.Perm.swap _ _ _)

theorem mul_fneg_same (x y : Flt) : SameVal F (F.mul (fneg x) y) (fneg (F.mul x y)) := by
  cases h : F.isNaN (F.mul x y)
  · exact Or.inl (mul_fneg_left h)
  · right
    constructor
    · cases h' : F.isNaN (F.mul (fneg x) y)
      · have := mul_fneg_left (F := F) h'
        rw [fneg_fneg] at this
        rw [this] at h
        have e : F.isNaN (fneg (F.mul (fneg x) y)) = F.isNaN (F.mul (fneg x) y) := rfl
        rw [e, h'] at h; cases h
      · rfl
    · exact h

theorem Fmt.SameVal.symm {x y : Flt} (h : SameVal F x y) : SameVal F y x := by
  rcases h with h | ⟨h1, h2⟩
  · exact Or.inl h.symm
  · exact Or.inr ⟨h2, h1⟩

theorem Fmt.SameVal.neg {x y : Flt} (h : SameVal F x y) : SameVal F (fneg x) (fneg y) := by
  rcases h with h | ⟨h1, h2⟩
  · exact Or.inl (by rw [h])
  · exact Or.inr ⟨h1, h2⟩

/-- The products that a pair of operands adds to the parts are those of the complex product of `p` and `q`. -/
def AlikeTerms (F : Fmt) (conj : Bool) (x : (Flt × Flt) × (Flt × Flt)) (p q : Flt × Flt) : Prop :=
  Alike F [(dotRe F conj x.1 x.2).1, (dotRe F conj x.1 x.2).2] (cmulRe F p q) ∧ Alike F [(dotIm F conj x.1 x.2).1, (dotIm F conj x.1 x.2).2] (cmulIm F p q)

theorem alike_u (p q : Flt × Flt) : AlikeTerms F false (p, q) p q :=
  ⟨Alike.pair (Or.inl rfl) (Or.inl rfl), Alike.pair_swap (Or.inl rfl) (Or.inl rfl)⟩

theorem alike_c (a q : Flt × Flt) : AlikeTerms F true (a, q) (zconj a) q := by
  constructor
  · refine Alike.pair (Or.inl rfl) ?_
    have := (mul_fneg_same (F := F) a.2 q.2).neg
    rw [fneg_fneg] at this
    exact this.symm
  · exact Alike.pair_swap (mul_fneg_same (F := F) a.2 q.1).symm (Or.inl rfl)

theorem alike_swap (p b : Flt × Flt) : AlikeTerms F true (b, p) p (zconj b) := by
  have h := alike_c (F := F) b p
  have eR : cmulRe F (zconj b) p = cmulRe F p (zconj b) := by
    unfold cmulRe; rw [mul_comm_all (zconj b).1, mul_comm_all (zconj b).2]
  refine ⟨eR ▸ h.1, ?_⟩
  refine Alike.pair ?_ ?_
  · have := (mul_fneg_same (F := F) b.2 p.1).symm
    rw [mul_comm_all (fneg b.2)] at this
    exact this
  · exact Or.inl (mul_comm_all _ _)

seal AlikeTerms Fmt.zscl Fmt.zconj Fmt.zsclColT Fmt.zsclColC in
theorem zbranch_alike {row : Bool} {ta tb : Tr} {alpha a b : Flt × Flt} (hok : row = true ∨ ta = .no ∨ F.zunit alpha = true) {br : ZBranch} (hbr : F.zbranch row ta tb alpha = br) :
    AlikeTerms F br.conj (if br.swap then (br.fB b, br.fA a) else (br.fA a, br.fB b)) (alphaMul F alpha (cjIf ta a)) (cjIf tb b) := by
  have c0 : ∀ x : Flt × Flt, cjIf .no x = x := fun x => rfl
  have c1 : ∀ x : Flt × Flt, cjIf .tr x = x := fun x => rfl
  subst hbr
  rw [alphaMul_eq]
  unfold zbranch
  cases hu : F.zunit alpha <;> rw [hu] at hok <;> cases row <;> cases ta <;> cases tb <;>
    simp only [Bool.false_eq_true, if_false, if_true, c0, c1, cjIf_cj, id, or_self, or_false, reduceCtorEq, zsclC_eq] at hok ⊢ <;>
    first
    | exact alike_u _ _
    | exact alike_c _ _
    | exact alike_swap _ _

/-! ### One part of an entry -/

/-- The products of a part, with the sign changes the code makes. -/
structure DotPartEq (F : Fmt) (O : ZOp α) (P : α → Flt × Flt) : Prop where
  e0 : ∀ a, F.Finite (P a).1 → O.fI a 0 = (P a).1
  e1 : ∀ a, F.Finite (P a).2 → O.fI a 1 = (P a).2

theorem dotPartEq_im [F.OK] (conj : Bool) (T : Tune) : DotPartEq F (dotOp F conj T) (fun a => dotIm F conj a.1 a.2) := by
  cases conj
  · exact ⟨fun _ _ => rfl, fun _ _ => rfl⟩
  · exact ⟨fun a h => flip_eq (x := F.mul a.1.2 a.2.1) h, fun _ _ => rfl⟩

theorem dotPartEq_re [F.OK] (conj : Bool) (T : Tune) : DotPartEq F (dotOp F conj T).swap (fun a => dotRe F conj a.1 a.2) := by
  cases conj
  · exact ⟨fun _ _ => rfl, fun a h => flip_eq (x := F.mul a.1.2 a.2.2) h⟩
  · exact ⟨fun _ _ => rfl, fun _ _ => rfl⟩

theorem DotPart.eq {O : ZOp α} {P : α → Flt × Flt} (h : DotPart F O P) (h' : DotPartEq F O P) : ∀ {es : List α}, (∀ x ∈ es.flatMap (fun a => [(P a).1, (P a).2]), F.Finite x) →
    partNums O.e O.fI es = es.flatMap (fun a => [(P a).1, (P a).2])
  | [], _ => rfl
  | a :: es, hx => by
    rw [List.flatMap_cons] at hx ⊢
    rw [← DotPart.eq h h' (fun x hx' => hx x (List.mem_append_right _ hx')), ← h'.e0 a (hx _ (by simp)), ← h'.e1 a (hx _ (by simp))]
    unfold partNums
    rw [List.flatMap_cons, h.e]
    rfl

/-- What a part of an entry must be, given its summands: special according to them; and, if the block sizes are small enough (`small`), the conversion of their reproducible sum if they are finite, and
exactly an infinity if there are infinities of one sign only, no NaN, and the finite summands are below `2^(MAX_EXP - W)` or so. -/
def PartIs (F : Fmt) (fold : Nat) (small : Prop) (nums : List Flt) (v : Flt) : Prop :=
  Specials F nums v ∧ (small → (∀ x ∈ nums, F.Finite x) → v = convert F fold (F.specSum fold nums)) ∧ (small → (∀ x ∈ nums, F.Finite x → 1 ≤ F.dindex x) → SpecialsExact F nums v)

/-- One part of an entry: previous contents `bl` (nothing, or one number), then calls on blocks. -/
theorem part_entry [F.OK] {T : Tune} (hT : T.OK F) {O : ZOp α} (hO : O.OK) {P : α → Flt × Flt} (hp : DotPart F O P) (hq : DotPartEq F O P) {fold : Nat} (hfold : 2 ≤ fold) {bs : List (List α)} {ts : List Flt}
    (hts : Alike F (bs.flatten.flatMap fun a => [(P a).1, (P a).2]) ts) {m : Nat} (hm : ∀ b ∈ bs, b.length ≤ m) {bl : List Flt} {y0 y1 : Binned} (hy : (bl = [] ∧ y1 = dmsetzero fold) ∨ ∃ v, bl = [v] ∧ y1 = F.dmdconv fold v) :
    PartIs F fold (2 * min T.nb m ≤ F.endurance ∧ 2 * bs.flatten.length + 1 ≤ F.capacity) (bl ++ ts) (convert F fold (zrun F T fold O bs (y0, y1)).2) := by
  have hnums := hp.nums bs.flatten
  have hk : F.kinds (partNums O.e O.fI bs.flatten) = F.kinds ts := hnums.symm.trans hts.kinds
  have hlen : y1.pri.length = fold := by
    rcases hy with ⟨_, rfl⟩ | ⟨v, _, rfl⟩
    · exact eval_length (F := F) .zero
    · exact eval_length (.add v .zero)
  have hky : F.kind (nth y1.pri 0) = F.kinds bl := by
    rcases hy with ⟨rfl, rfl⟩ | ⟨v, rfl, rfl⟩
    · exact hist_kind (F := F) hfold .zero trivial (Nat.zero_le _)
    · have := F.facts
      have hc : 1 ≤ F.capacity := by rcases (inferInstance : F.OK).isDoubleOrFloat with rfl | rfl <;> decide
      exact hist_kind (F := F) hfold (.add v .zero) trivial hc
  -- finite previous contents are a history
  have hist : F.kinds bl = .fin → ∃ h : Hist, y1 = h.eval F fold ∧ h.Legal F ∧ h.Settled ∧ h.nums.length ≤ 1 ∧ h.seen = bl ∧ h.eval F fold = F.sumSeq fold bl (dmsetzero fold) := by
    intro hb
    rcases hy with ⟨rfl, rfl⟩ | ⟨v, rfl, rfl⟩
    · exact ⟨.zero, rfl, trivial, trivial, Nat.zero_le _, rfl, rfl⟩
    · exact ⟨.add v .zero, rfl, ⟨kinds_fin.1 hb v (by simp), trivial⟩, trivial, Nat.le_refl _, rfl, rfl⟩
  have hbl : bl.length ≤ 1 := by rcases hy with ⟨rfl, _⟩ | ⟨v, rfl, _⟩ <;> simp
  have hpl : (partNums O.e O.fI bs.flatten).length = 2 * bs.flatten.length := by rw [partNums_length, hp.e]
  have hnb : 2 * min T.nb m ≤ F.endurance → ∀ b ∈ bs, O.e * min T.nb b.length ≤ F.endurance := fun h b hb => by
    have := hm b hb
    rw [hp.e]; omega
  have hsafe : (∀ x ∈ bl ++ ts, F.Finite x → 1 ≤ F.dindex x) → ∀ b ∈ bs, ZSafe F O b := fun hs b hb => hp.safe fun a ha => by
    have hmem : ∀ x, x ∈ [(P a).1, (P a).2] → F.Finite x → 1 ≤ F.dindex x := fun x hx hf =>
      hs x (List.mem_append_right _ (hts.mem x (List.mem_flatMap.2 ⟨a, List.mem_flatten.2 ⟨b, hb, ha⟩, hx⟩) hf)) hf
    exact ⟨hmem _ (by simp), hmem _ (by simp)⟩
  refine ⟨(specials_of (safe := False) fun hk' => ?_).1, fun hsm hf => ?_, fun hsm hs => (specials_of (safe := True) fun hk' => ?_).2 trivial⟩
  · rw [kinds_append] at hk' ⊢
    by_cases hb : F.kinds bl = .fin
    · rw [hb, Kind.fin_add, ← hk] at hk' ⊢
      exact zrun_inf hT hO hp.term (by omega) bs hlen hk'
    · have := zrun_special hT hO hp.term (by omega : 1 ≤ fold) (ex := False) bs (y0 := y0) (fun s => s.elim) hlen (by rw [hky]; exact hb)
      rw [hky, hk] at this
      exact this
  · obtain ⟨h, h1, h2, h3, h4, h5, h6⟩ := hist (kinds_fin.2 fun x hx => hf x (List.mem_append_left _ hx))
    have hft : ∀ x ∈ ts, F.Finite x := fun x hx => hf x (List.mem_append_right _ hx)
    have hpm := hts.perm hft
    have e := hp.eq hq (es := bs.flatten) (fun x hx => hft x (hpm.mem_iff.1 hx))
    have hlt : ts.length = 2 * bs.flatten.length := by rw [← hpm.length_eq, ← e, hpl]
    rw [h1, zrun_fin hT hO hfold bs (hnb hsm.1) h2 h3 (by rw [e]; exact fun x hx => hft x (hpm.mem_iff.1 hx)) (by rw [hpl]; omega), e,
      sumSeq_perm hfold hpm h2 h3 (fun x hx => hft x (hpm.mem_iff.1 hx)) (by rw [← e, hpl]; omega), h6,
      spec_append hfold (fun x hx => hf x (List.mem_append_left _ hx)) hft (by omega)]
  · rw [kinds_append] at hk' ⊢
    by_cases hb : F.kinds bl = .fin
    · obtain ⟨h, h1, h2, h3, h4, h5, _⟩ := hist hb
      rw [hb, Kind.fin_add, ← hk] at hk' ⊢
      rw [h1]
      exact zrun_mixed hT hO hp.term hfold bs (hnb hsm.1) h2 h3 (fun _ x hx => by rw [h5] at hx; exact hs x (List.mem_append_left _ hx) (kinds_fin.1 hb x hx)) (fun _ => hsafe hs) (by rw [hpl]; omega) hk'
    · have := zrun_special hT hO hp.term (by omega : 1 ≤ fold) (ex := True) bs (y0 := y0) (fun _ b hb => (hsafe hs b hb).ex) hlen (by rw [hky]; exact hb)
      rw [hky, hk] at this
      exact this

theorem dotZ_run (T : Tune) (fold : Nat) (conj : Bool) (bs : List (List ((Flt × Flt) × (Flt × Flt)))) (z : Binned × Binned) :
    bs.foldl (fun z b => F.dotZ T fold conj b z) z = zrun F T fold (dotOp F conj T) bs z := by cases conj <;> rfl

/-- Both parts. -/
theorem entry_parts [F.OK] {T : Tune} (hT : T.OK F) {fold : Nat} (hfold : 2 ≤ fold) {conj : Bool} {n : Nat} {x : Nat → (Flt × Flt) × (Flt × Flt)} {p q : Nat → Flt × Flt} (hst : ∀ c, c < n → AlikeTerms F conj (x c) (p c) (q c))
    {bs : List (List ((Flt × Flt) × (Flt × Flt)))} (hbs : bs.flatten = (List.range n).map x) {m : Nat} (hm : ∀ b ∈ bs, b.length ≤ m) (beta y : Flt × Flt) :
    PartIs F fold (2 * min T.nb m ≤ F.endurance ∧ 2 * n + 1 ≤ F.capacity) (zbetaTerm F Prod.fst beta y ++ (List.range n).flatMap (fun c => cmulRe F (p c) (q c)))
        (convert F fold (bs.foldl (fun z b => F.dotZ T fold conj b z) (F.zbeta0 fold beta y)).1) ∧
      PartIs F fold (2 * min T.nb m ≤ F.endurance ∧ 2 * n + 1 ≤ F.capacity) (zbetaTerm F Prod.snd beta y ++ (List.range n).flatMap (fun c => cmulIm F (p c) (q c)))
        (convert F fold (bs.foldl (fun z b => F.dotZ T fold conj b z) (F.zbeta0 fold beta y)).2) := by
  have hz : ((zbetaTerm F Prod.fst beta y = [] ∧ (F.zbeta0 fold beta y).1 = dmsetzero fold) ∨ ∃ v, zbetaTerm F Prod.fst beta y = [v] ∧ (F.zbeta0 fold beta y).1 = F.dmdconv fold v) ∧
      ((zbetaTerm F Prod.snd beta y = [] ∧ (F.zbeta0 fold beta y).2 = dmsetzero fold) ∨ ∃ v, zbetaTerm F Prod.snd beta y = [v] ∧ (F.zbeta0 fold beta y).2 = F.dmdconv fold v) := by
    unfold zbeta0 zbetaTerm zzero
    rw [alphaMul_eq]
    cases isZero beta.1 && isZero beta.2
    · simp only [Bool.false_eq_true, if_false]
      exact ⟨Or.inr ⟨_, rfl, by split <;> rfl⟩, Or.inr ⟨_, rfl, by split <;> rfl⟩⟩
    · exact ⟨Or.inl ⟨rfl, rfl⟩, Or.inl ⟨rfl, rfl⟩⟩
  have hlen : bs.flatten.length = n := by rw [hbs, List.length_map, List.length_range]
  have alR : Alike F (bs.flatten.flatMap fun a => [(dotRe F conj a.1 a.2).1, (dotRe F conj a.1 a.2).2]) ((List.range n).flatMap (fun c => cmulRe F (p c) (q c))) := by
    rw [hbs, List.flatMap_map]
    exact Alike.flatMap fun c hc => (hst c (List.mem_range.1 hc)).1
  have alI : Alike F (bs.flatten.flatMap fun a => [(dotIm F conj a.1 a.2).1, (dotIm F conj a.1 a.2).2]) ((List.range n).flatMap (fun c => cmulIm F (p c) (q c))) := by
    rw [hbs, List.flatMap_map]
    exact Alike.flatMap fun c hc => (hst c (List.mem_range.1 hc)).2
  have hO := dotOp_ok (F := F) conj T
  have hsw : (dotOp F conj T).swap.OK := ⟨hO.e1, hO.zI, hO.zR⟩
  rw [dotZ_run]
  constructor
  · have := part_entry hT hsw (dotPart_re conj T) (dotPartEq_re conj T) hfold alR hm (y0 := (F.zbeta0 fold beta y).2) hz.1
    rw [hlen, show ((F.zbeta0 fold beta y).2, (F.zbeta0 fold beta y).1) = (F.zbeta0 fold beta y).swap from rfl, zrun_swap] at this
    exact this
  · have := part_entry hT hO (dotPart_im conj T) (dotPartEq_im conj T) hfold alI hm (y0 := (F.zbeta0 fold beta y).1) hz.2
    rw [hlen] at this
    exact this

/-- **C83** (partial, matrix-vector product). Each part of each entry of the complex matrix-vector product depends on its own summands only: whatever infinities and NaN occur elsewhere - in other entries, or in the
products of the other part -, it is special according to its own summands (for all block sizes), and for block sizes as in C45 the conversion of their reproducible sum if they are finite. Missing: as for `C45_rzgemv_partial`. -/
theorem C83_gemv_partial [F.OK] {T : Tune} (hT : T.OK F) {fold : Nat} (hfold : 2 ≤ fold) {b : GemvB} (hb : b.OK)
    (gx : Int → Flt × Flt) (g : Nat → Nat → Int → Flt × Flt) (yi : Int → Binned × Binned) (Order TransA : Char) {M N : Nat} (hM : M ≠ 0) (hN : N ≠ 0) (alpha : Flt × Flt)
    (A : Int → Flt × Flt) (lda : Int) (X : Int → Flt × Flt) (incX : Int) (beta : Flt × Flt) (Y : Int → Flt × Flt) {incY : Int} (hY : incY ≠ 0) {rows cols : Nat}
    (hr : rows = if isNo TransA then M else N) (hc : cols = if isNo TransA then N else M) (hok : isRow Order = true ∨ trOf TransA ≠ .cj ∨ M = N) {r : Nat} (hrr : r < rows) :
    let small := 2 * min T.nb (min cols (gemvTile b Order TransA)) ≤ F.endurance ∧ 2 * cols + 1 ≤ F.capacity
    let v := F.rzgemv T fold b gx g yi Order TransA M N alpha A lda X incX beta Y incY (r * incY)
    PartIs F fold small (zbetaTerm F Prod.fst beta (Y (r * incY)) ++ (if zzero alpha then [] else zgemvRe F (isRow Order) (trOf TransA) cols alpha A lda X incX r)) v.1 ∧
    PartIs F fold small (zbetaTerm F Prod.snd beta (Y (r * incY)) ++ (if zzero alpha then [] else zgemvIm F (isRow Order) (trOf TransA) cols alpha A lda X incX r)) v.2 := by
  intro small v
  have hv : v = F.zconvert fold (F.zgemv T fold b gx g Order TransA M N alpha A lda X incX (forS 0 rows 1 (fun i YI => store YI i (F.zbeta0 fold beta (Y (i * incY)))) yi) 1 r) := by
    show F.rzgemv T fold b gx g yi Order TransA M N alpha A lda X incX beta Y incY (r * incY) = _
    unfold rzgemv
    rw [if_neg (show ¬ (N = 0 ∨ M = 0) by simp [hM, hN])]
    simp only [← hr]
    rw [(setRange rows incY hY _ Y).1 r hrr]
  have hYI := (setRange rows 1 (by decide) (fun i : Nat => F.zbeta0 fold beta (Y (i * incY))) yi).1 r hrr
  simp only [Int.mul_one] at hYI
  rw [hv]
  unfold zconvert
  cases ha : zzero alpha
  · simp only [Bool.false_eq_true, if_false]
    have H := zgemv_eq (F := F) (T := T) (fold := fold) hb gx g Order TransA hM hN ha A lda X incX (forS 0 rows 1 (fun i YI => store YI i (F.zbeta0 fold beta (Y (i * incY)))) yi) (incY := 1) (by decide) hok
    rw [← hr, ← hc] at H
    obtain ⟨bs, h1, h3, h2⟩ := H.1 r hrr
    rw [Int.mul_one, hYI] at h2
    rw [h2]
    unfold zgemvRe zgemvIm
    refine entry_parts hT hfold (fun c _ => ?_) h1 h3 beta _
    unfold zopEl cjIf
    rw [trOf_no]
    by_cases ht : trOf TransA = .cj
    · rw [if_pos ht, decide_eq_true ht]; exact alike_c _ _
    · rw [if_neg ht, decide_eq_false ht]; exact alike_u _ _
  · simp only [if_true]
    rw [C45_nothing _ _ _ _ _ _ _ _ _ _ _ _ _ _ _ _ (Or.inr (Or.inr ha)), hYI]
    have := entry_parts (F := F) hT hfold (conj := false) (n := 0) (x := fun _ => ((zero, zero), (zero, zero))) (p := fun _ => (zero, zero)) (q := fun _ => (zero, zero)) (fun c h => absurd h (by omega)) (bs := []) rfl
      (m := min cols (gemvTile b Order TransA)) (fun b h => nomatch h) beta (Y (r * incY))
    simp only [List.range_zero, List.flatMap_nil, List.foldl_nil] at this
    have hc1 : 2 * 0 + 1 ≤ F.capacity := by rcases (inferInstance : F.OK).isDoubleOrFloat with rfl | rfl <;> decide
    exact ⟨⟨this.1.1, fun s => this.1.2.1 ⟨s.1, hc1⟩, fun s => this.1.2.2 ⟨s.1, hc1⟩⟩, ⟨this.2.1, fun s => this.2.2.1 ⟨s.1, hc1⟩, fun s => this.2.2.2 ⟨s.1, hc1⟩⟩⟩

/-- **C83** (partial, matrix-matrix product). Missing: as for `C47_rzgemm_partial`. -/
theorem C83_gemm_partial [F.OK] {T : Tune} (hT : T.OK F) {fold : Nat} (hfold : 2 ≤ fold) {b : GemmB} (hb : b.OK)
    (g : Int → Flt × Flt) (ga gb : Nat → Nat → Nat → Int → Flt × Flt) (ci : Int → Binned × Binned) (Order TransA TransB : Char) (M N K : Nat) (alpha : Flt × Flt)
    (A : Int → Flt × Flt) (lda : Int) (B : Int → Flt × Flt) (ldb : Int) (beta : Flt × Flt) (C : Int → Flt × Flt) {ldc : Nat}
    (hC : (if isRow Order then N else M) ≤ ldc) (hok : isRow Order = true ∨ trOf TransA = .no ∨ (F.feq alpha.1 F.one && isZero alpha.2) = true) {r c : Nat} (hr : r < M) (hc : c < N) :
    let small := 2 * min T.nb (min K (gemmTile b Order TransA TransB)) ≤ F.endurance ∧ 2 * K + 1 ≤ F.capacity
    let v := F.rzgemm T fold b g ga gb ci Order TransA TransB M N K alpha A lda B ldb beta C ldc (entryAt (isRow Order) ldc r c)
    PartIs F fold small (zbetaTerm F Prod.fst beta (C (entryAt (isRow Order) ldc r c)) ++ (if zzero alpha then [] else zgemmRe F (isRow Order) (trOf TransA) (trOf TransB) K alpha A lda B ldb r c)) v.1 ∧
    PartIs F fold small (zbetaTerm F Prod.snd beta (C (entryAt (isRow Order) ldc r c)) ++ (if zzero alpha then [] else zgemmIm F (isRow Order) (trOf TransA) (trOf TransB) K alpha A lda B ldb r c)) v.2 := by
  intro small v
  have mid : ∀ (CI : Int → Binned × Binned) (ldi : Nat), (if isRow Order then N else M) ≤ ldi → CI (entryAt (isRow Order) ldi r c) = F.zbeta0 fold beta (C (entryAt (isRow Order) ldc r c)) →
      let w := F.zconvert fold (F.zgemm T fold b g ga gb Order TransA TransB M N K alpha A lda B ldb CI ldi (entryAt (isRow Order) ldi r c))
      PartIs F fold small (zbetaTerm F Prod.fst beta (C (entryAt (isRow Order) ldc r c)) ++ (if zzero alpha then [] else zgemmRe F (isRow Order) (trOf TransA) (trOf TransB) K alpha A lda B ldb r c)) w.1 ∧
      PartIs F fold small (zbetaTerm F Prod.snd beta (C (entryAt (isRow Order) ldc r c)) ++ (if zzero alpha then [] else zgemmIm F (isRow Order) (trOf TransA) (trOf TransB) K alpha A lda B ldb r c)) w.2 := by
    intro CI ldi hld hCI
    unfold zconvert
    by_cases hn : K = 0 ∨ zzero alpha = true
    · have e1 : (if zzero alpha then [] else zgemmRe F (isRow Order) (trOf TransA) (trOf TransB) K alpha A lda B ldb r c) = [] := by
        rcases hn with rfl | hn
        · unfold zgemmRe; simp
        · rw [hn]; rfl
      have e2 : (if zzero alpha then [] else zgemmIm F (isRow Order) (trOf TransA) (trOf TransB) K alpha A lda B ldb r c) = [] := by
        rcases hn with rfl | hn
        · unfold zgemmIm; simp
        · rw [hn]; rfl
      rw [C47_nothing _ _ _ _ _ _ _ _ _ _ _ _ _ _ _ _ _ _ _ (Or.inr (Or.inr hn)), hCI, e1, e2]
      have := entry_parts (F := F) hT hfold (conj := false) (n := 0) (x := fun _ => ((zero, zero), (zero, zero))) (p := fun _ => (zero, zero)) (q := fun _ => (zero, zero)) (fun c h => absurd h (by omega)) (bs := []) rfl
        (m := min K (gemmTile b Order TransA TransB)) (fun b h => nomatch h) beta (C (entryAt (isRow Order) ldc r c))
      simp only [List.range_zero, List.flatMap_nil, List.foldl_nil] at this
      have hc1 : 2 * 0 + 1 ≤ F.capacity := by rcases (inferInstance : F.OK).isDoubleOrFloat with rfl | rfl <;> decide
      exact ⟨⟨this.1.1, fun s => this.1.2.1 ⟨s.1, hc1⟩, fun s => this.1.2.2 ⟨s.1, hc1⟩⟩, ⟨this.2.1, fun s => this.2.2.1 ⟨s.1, hc1⟩, fun s => this.2.2.2 ⟨s.1, hc1⟩⟩⟩
    · have ha : zzero alpha = false := by
        cases h : zzero alpha
        · rfl
        · exact absurd (Or.inr h) hn
      rw [ha]
      simp only [Bool.false_eq_true, if_false]
      have H := zgemm_eq (F := F) (T := T) (fold := fold) hb g ga gb Order TransA TransB (M := M) (N := N) (fun h => hn (Or.inl h)) ha A lda B ldb CI hld rfl
        (fun h1 h2 => zbranch_id (by rw [trOf_no]; exact h1) h2) (fun h1 => zbranch_idB (by rw [trOf_no]; exact h1))
      obtain ⟨bs, h1, h3, h2⟩ := H.1 r c hr hc
      rw [hCI] at h2
      rw [h2]
      unfold zgemmRe zgemmIm
      refine entry_parts hT hfold (fun t _ => ?_) h1 h3 beta _
      unfold zopEl
      rw [trOf_no, trOf_no]
      exact zbranch_alike hok rfl
  have hv : v = F.rzgemm T fold b g ga gb ci Order TransA TransB M N K alpha A lda B ldb beta C ldc (entryAt (isRow Order) ldc r c) := rfl
  unfold rzgemm at hv
  rw [if_neg (show ¬ (M = 0 ∨ N = 0) by omega)] at hv
  rw [hv]
  clear hv v
  cases hO : isRow Order
  · simp only [hO, Bool.false_eq_true, if_false] at mid hC ⊢
    have e1 : ∀ ld : Int, entryAt false ld r c = (c : Int) * ld + r := fun _ => rfl
    have hm := mid _ M (Nat.le_refl _) ((setMat N M M (Int.le_refl _) (fun j i : Nat => F.zbeta0 fold beta (C (j * (ldc : Int) + i))) ci).1 c r hc hr)
    rw [e1 ldc, (setMat N M ldc (by omega) _ C).1 c r hc hr]
    exact hm
  · simp only [hO, if_true] at mid hC ⊢
    have e1 : ∀ ld : Int, entryAt true ld r c = (r : Int) * ld + c := fun _ => rfl
    have hm := mid _ N (Nat.le_refl _) ((setMat M N N (Int.le_refl _) (fun i j : Nat => F.zbeta0 fold beta (C (i * (ldc : Int) + j))) ci).1 r c hr hc)
    rw [e1 ldc, (setMat M N ldc (by omega) _ C).1 r c hr hc]
    exact hm

/-! ### Concrete cases -/

/-- The matrix `[[2^1000, 1 + i], [1 + i, 2^1000]]`, row-major. -/
def exOvA : Int → Flt × Flt := fun l => if l = 0 ∨ l = 3 then (f64.pow2 1000, zero) else (f64.one, f64.one)
/-- The vector `(2^1000, 1 + 2i)`. -/
def exOvX : Int → Flt × Flt := fun l => if l = 0 then (f64.pow2 1000, zero) else (f64.one, f64.ofInt 2)

/-- A product overflows in the real part of the first entry: this part is infinite, its imaginary part is the exact 3, and the second entry is not disturbed, for `rzgemv` and for `rzgemm` with the vector as a matrix of one column. -/
example :
    let y := f64.rzgemv exTZ 3 ⟨1, 2, 2, 4, 1⟩ (fun _ => oneZ f64) (fun _ _ _ => (f64.nan, f64.nan)) (fun _ => (dmsetzero 3, dmsetzero 3)) 'r' 'n' 2 2 (oneZ f64) exOvA 2 exOvX 1 (zero, zero) (fun _ => (f64.nan, f64.nan)) 1
    let c := f64.rzgemm exTZ 3 ⟨2, 4, 2, 6⟩ (fun _ => oneZ f64) (fun _ _ _ _ => oneZ f64) (fun _ _ _ _ => oneZ f64) (fun _ => (dmsetzero 3, dmsetzero 3)) 'r' 'n' 'n' 2 1 2 (oneZ f64) exOvA 2 exOvX 1 (zero, zero)
      (fun _ => (f64.nan, f64.nan)) 1
    y 0 = (f64.inf false, f64.ofInt 3) ∧ y 1 = (f64.pow2 1001, f64.add (f64.pow2 1000) (f64.pow2 1001)) ∧ c 0 = y 0 ∧ c 1 = y 1 := by
  decide +kernel

/-- The hypotheses on the summands of the example: the real part has an infinite summand, the summands of the imaginary part are finite; the block sizes are small. -/
example : f64.inf false ∈ zgemvRe f64 true .no 2 (oneZ f64) exOvA 2 exOvX 1 0 ∧ (∀ x ∈ zgemvRe f64 true .no 2 (oneZ f64) exOvA 2 exOvX 1 0, f64.isNaN x = false ∧ x ≠ f64.inf true) ∧
    (∀ x ∈ zgemvIm f64 true .no 2 (oneZ f64) exOvA 2 exOvX 1 0, f64.Finite x) ∧ zbetaTerm f64 Prod.fst (zero, zero) (f64.nan, f64.nan) = [] ∧
    2 * min exTZ.nb (min 2 (gemvTile ⟨1, 2, 2, 4, 1⟩ 'r' 'n')) ≤ f64.endurance := by
  decide +kernel

end Repro

import Verif.Gemm
import Mathlib.Tactic.Ring
import Mathlib.Data.List.Nodup
import Mathlib.Tactic.Linarith
import Mathlib.Algebra.Order.Group.Int
import Mathlib.Algebra.Order.Ring.Int
/-!
# Lemmas about tiled loops
-/

namespace Repro

theorem mem_steps {lo hi st i : Nat} (hs : 1 ≤ st) : i ∈ steps lo hi st ↔ lo ≤ i ∧ i < hi ∧ ∃ t, i = lo + t * st := by
  unfold steps
  rw [List.mem_map]
  constructor
  · rintro ⟨t, ht, rfl⟩
    rw [List.mem_range, Nat.lt_iff_add_one_le, Nat.le_div_iff_mul_le (by omega), Nat.add_mul] at ht
    exact ⟨by omega, by omega, t, rfl⟩
  · rintro ⟨h1, h2, t, rfl⟩
    refine ⟨t, ?_, rfl⟩
    rw [List.mem_range, Nat.lt_iff_add_one_le, Nat.le_div_iff_mul_le (by omega), Nat.add_mul]
    omega

theorem steps_nodup {lo hi st : Nat} (hs : 1 ≤ st) : (steps lo hi st).Nodup := by
  unfold steps
  refine List.Nodup.map ?_ List.nodup_range
  intro a b h
  simp only [Nat.add_left_cancel_iff] at h
  exact Nat.eq_of_mul_eq_mul_right (by omega) h

theorem mem_steps1 {lo hi i : Nat} : i ∈ steps lo hi 1 ↔ lo ≤ i ∧ i < hi := by
  rw [mem_steps (Nat.le_refl 1)]
  constructor
  · rintro ⟨h1, h2, -⟩; exact ⟨h1, h2⟩
  · rintro ⟨h1, h2⟩; exact ⟨h1, h2, i - lo, by omega⟩

theorem foldl_flatMap' {κ κ' σ : Type} (f : κ → List κ') (op : σ → κ' → σ) : ∀ (L : List κ) (s : σ),
    L.foldl (fun s i => (f i).foldl op s) s = (L.flatMap f).foldl op s
  | [], s => rfl
  | a :: L, s => by
    rw [List.foldl_cons, List.flatMap_cons, List.foldl_append]
    exact foldl_flatMap' f op L _

/-- The value left at an address by a sequence of updates. -/
theorem updAll {κ β : Type} (loc : κ → Int) (op : κ → β → β) (l : Int) : ∀ (L : List κ) (Y : Int → β),
    L.foldl (fun Y k => store Y (loc k) (op k (Y (loc k)))) Y l = (L.filter (fun k => loc k = l)).foldl (fun z k => op k z) (Y l)
  | [], Y => rfl
  | k :: L, Y => by
    rw [List.foldl_cons, updAll loc op l L, List.filter_cons]
    by_cases h : loc k = l
    · simp [h, store]
    · have h' : ¬ l = loc k := fun e => h e.symm
      simp [h, h', store]

/-- The value left at an address by a sequence of assignments that agree. -/
theorem setAll {κ β : Type} (loc : κ → Int) (v : κ → β) {l : Int} {w : β} : ∀ (L : List κ) (Y : Int → β),
    (∀ k ∈ L, loc k = l → v k = w) → (Y l = w ∨ ∃ k ∈ L, loc k = l) → L.foldl (fun Y k => store Y (loc k) (v k)) Y l = w
  | [], Y, _, h => by
    rcases h with h | ⟨k, hk, -⟩
    · exact h
    · cases hk
  | k :: L, Y, hv, h => by
    rw [List.foldl_cons]
    refine setAll loc v L _ (fun k' hk' => hv k' (List.mem_cons_of_mem _ hk')) ?_
    by_cases hl : loc k = l
    · left; unfold store; rw [if_pos hl.symm]; exact hv k List.mem_cons_self hl
    · rcases h with h | ⟨k', hk', hl'⟩
      · left; unfold store; rw [if_neg (fun e => hl e.symm)]; exact h
      · rcases List.mem_cons.1 hk' with rfl | hk'
        · exact absurd hl' hl
        · exact Or.inr ⟨k', hk', hl'⟩

theorem setAll_ne {κ β : Type} (loc : κ → Int) (v : κ → β) {l : Int} : ∀ (L : List κ) (Y : Int → β),
    (∀ k ∈ L, loc k ≠ l) → L.foldl (fun Y k => store Y (loc k) (v k)) Y l = Y l
  | [], Y, _ => rfl
  | k :: L, Y, hv => by
    rw [List.foldl_cons, setAll_ne loc v L _ (fun k' hk' => hv k' (List.mem_cons_of_mem _ hk'))]
    unfold store; rw [if_neg (fun e => hv k List.mem_cons_self e.symm)]

theorem filter_unique {κ : Type} [DecidableEq κ] {p : κ → Bool} {q : κ} : ∀ {L : List κ}, L.Nodup → (∀ x ∈ L, p x = true → x = q) → p q = true →
    L.filter p = if q ∈ L then [q] else []
  | [], _, _, _ => by simp
  | a :: L, hn, hu, hq => by
    rw [List.nodup_cons] at hn
    have ih := filter_unique hn.2 (fun x hx => hu x (List.mem_cons_of_mem _ hx)) hq
    rw [List.filter_cons, ih]
    by_cases ha : a = q
    · subst ha
      simp [hq, hn.1]
    · have : p a = false := by
        by_contra hc
        exact ha (hu a List.mem_cons_self (by simpa using hc))
      have h' : ¬ q = a := fun h => ha h.symm
      rw [this]
      simp [h']

theorem flatMap_unique {κ γ : Type} {K : κ → List γ} {q : κ} : ∀ {L : List κ}, L.Nodup → q ∈ L → (∀ x ∈ L, x ≠ q → K x = []) →
    L.flatMap K = K q
  | [], _, h, _ => by cases h
  | a :: L, hn, hm, hu => by
    rw [List.nodup_cons] at hn
    rw [List.flatMap_cons]
    by_cases ha : a = q
    · subst ha
      have : L.flatMap K = [] := by
        rw [List.flatMap_eq_nil_iff]
        intro x hx
        exact hu x (List.mem_cons_of_mem _ hx) (fun e => hn.1 (e ▸ hx))
      rw [this, List.append_nil]
    · rw [hu a List.mem_cons_self ha, List.nil_append]
      refine flatMap_unique hn.2 ?_ (fun x hx => hu x (List.mem_cons_of_mem _ hx))
      rcases List.mem_cons.1 hm with h | h
      · exact absurd h.symm ha
      · exact h

/-- The block containing `r`. -/
theorem block_of {M st r : Nat} (hs : 1 ≤ st) (hr : r < M) : ∃ q, q ∈ steps 0 M st ∧ q ≤ r ∧ r < min M (q + st) ∧
    ∀ x ∈ steps 0 M st, x ≤ r ∧ r < min M (x + st) → x = q := by
  refine ⟨r / st * st, ?_, ?_, ?_, ?_⟩
  · rw [mem_steps hs]
    have := Nat.div_mul_le_self r st
    exact ⟨by omega, by omega, r / st, by omega⟩
  · exact Nat.div_mul_le_self r st
  · have := Nat.div_add_mod r st
    have := Nat.mod_lt r (show 0 < st by omega)
    have e : st * (r / st) = r / st * st := Nat.mul_comm _ _
    omega
  · intro x hx hb
    rw [mem_steps hs] at hx
    obtain ⟨-, -, t, rfl⟩ := hx
    rw [Nat.zero_add] at hb ⊢
    congr 1
    refine (Nat.div_eq_of_lt_le hb.1 ?_).symm
    rw [Nat.add_mul]; omega

/-- Blocks of a range put together. -/
theorem blocks_flatten {γ : Type} (K st : Nat) (hs : 1 ≤ st) (e : Nat → γ) :
    ((steps 0 K st).map (fun k => (List.range' k (min st (K - k))).map e)).flatten = (List.range K).map e := by
  have key : ∀ n, ((List.range n).map (fun t => (List.range' (t * st) (min st (K - t * st))).map e)).flatten
      = (List.range (min K (n * st))).map e := by
    intro n
    induction n with
    | zero => simp
    | succ n ih =>
      rw [List.range_succ, List.map_append, List.flatten_append, ih, List.map_singleton, List.flatten_singleton,
        ← List.map_append, Nat.add_mul, Nat.one_mul]
      congr 1
      by_cases h : K ≤ n * st
      · have : K - n * st = 0 := by omega
        rw [this, Nat.min_eq_left h, Nat.min_eq_left (show K ≤ n * st + st by omega)]; simp
      · rw [Nat.min_eq_right (by omega)]
        rw [List.range_eq_range', List.range_eq_range']
        have e1 : List.range' (n * st) (min st (K - n * st)) = List.range' (0 + n * st) (min st (K - n * st)) := by rw [Nat.zero_add]
        rw [e1, List.range'_append_1]; congr 1; omega
  unfold steps
  rw [List.map_map]
  have : (fun k => (List.range' k (min st (K - k))).map e) ∘ (fun t => 0 + t * st) = fun t => (List.range' (t * st) (min st (K - t * st))).map e := by
    funext t; simp
  rw [this, key]
  congr 2
  have := Nat.div_add_mod (K - 0 + st - 1) st
  have := Nat.mod_lt (K - 0 + st - 1) (show 0 < st by omega)
  have e : st * ((K - 0 + st - 1) / st) = (K - 0 + st - 1) / st * st := Nat.mul_comm _ _
  omega

variable {α β : Type}

/-- Pairs of a block, when the operands at offset `k` are given by functions of the position. -/
theorem pairs_block {n : Nat} {X Y : Int → α} {incX incY : Int} {k : Nat} {e : Nat → α × α}
    (h : ∀ t : Nat, t < n → (X (t * incX), Y (t * incY)) = e (k + t)) : pairs n X incX Y incY = (List.range' k n).map e := by
  unfold pairs
  rw [List.range'_eq_map_range, List.map_map]
  exact List.map_congr_left fun t ht => h t (List.mem_range.1 ht)

theorem forS_flat2 {σ : Type} {a b : Nat} {st : Nat} {lo hi st' : Nat → Nat} (op : Nat → Nat → σ → σ) (s : σ) :
    forS a b st (fun i => forS (lo i) (hi i) (st' i) (fun ii => op i ii)) s
      = ((steps a b st).flatMap (fun i => (steps (lo i) (hi i) (st' i)).map (fun ii => (i, ii)))).foldl (fun s p => op p.1 p.2 s) s := by
  unfold forS
  rw [← foldl_flatMap']
  congr 1
  funext s i
  rw [List.foldl_map]

/-- Entries of a tile in the order of the loops. -/
def tileList (jFirst : Bool) (i hi j hj : Nat) : List (Nat × Nat) :=
  if jFirst then (steps j hj 1).flatMap (fun jj => (steps i hi 1).map (fun ii => (ii, jj)))
  else (steps i hi 1).flatMap (fun ii => (steps j hj 1).map (fun jj => (ii, jj)))

theorem mem_tileList {jFirst : Bool} {i hi j hj a b : Nat} : (a, b) ∈ tileList jFirst i hi j hj ↔ (i ≤ a ∧ a < hi) ∧ (j ≤ b ∧ b < hj) := by
  unfold tileList
  split
  · rw [List.mem_flatMap]
    constructor
    · rintro ⟨jj, h1, h2⟩
      rw [List.mem_map] at h2
      obtain ⟨ii, h2, h3⟩ := h2
      cases h3
      exact ⟨mem_steps1.1 h2, mem_steps1.1 h1⟩
    · rintro ⟨h1, h2⟩
      exact ⟨b, mem_steps1.2 h2, List.mem_map.2 ⟨a, mem_steps1.2 h1, rfl⟩⟩
  · rw [List.mem_flatMap]
    constructor
    · rintro ⟨jj, h1, h2⟩
      rw [List.mem_map] at h2
      obtain ⟨ii, h2, h3⟩ := h2
      cases h3
      exact ⟨mem_steps1.1 h1, mem_steps1.1 h2⟩
    · rintro ⟨h1, h2⟩
      exact ⟨a, mem_steps1.2 h1, List.mem_map.2 ⟨b, mem_steps1.2 h2, rfl⟩⟩

theorem tileList_nodup {jFirst : Bool} {i hi j hj : Nat} : (tileList jFirst i hi j hj).Nodup := by
  unfold tileList
  split
  · rw [List.nodup_flatMap]
    refine ⟨fun x _ => List.Nodup.map (fun a b h => by simpa using h) (steps_nodup (Nat.le_refl 1)), ?_⟩
    refine (steps_nodup (lo := j) (hi := hj) (Nat.le_refl 1)).imp ?_
    intro a b hab p hp hq
    rw [List.mem_map] at hp hq
    obtain ⟨_, _, rfl⟩ := hp
    obtain ⟨_, _, h⟩ := hq
    exact hab (by simpa using (congrArg Prod.snd h).symm)
  · rw [List.nodup_flatMap]
    refine ⟨fun x _ => List.Nodup.map (fun a b h => by simpa using h) (steps_nodup (Nat.le_refl 1)), ?_⟩
    refine (steps_nodup (lo := i) (hi := hi) (Nat.le_refl 1)).imp ?_
    intro a b hab p hp hq
    rw [List.mem_map] at hp hq
    obtain ⟨_, _, rfl⟩ := hp
    obtain ⟨_, _, h⟩ := hq
    exact hab (by simpa using (congrArg Prod.fst h).symm)

/-- All dot product calls of the tiled product. -/
def calls (bi bj bk M N K : Nat) (jFirst : Bool) : List (Nat × Nat × Nat × Nat × Nat) :=
  (steps 0 M bi).flatMap (fun i => (steps 0 N bj).flatMap (fun j => (steps 0 K bk).flatMap (fun k =>
    (tileList jFirst i (min M (i + bi)) j (min N (j + bj))).map (fun p => (i, j, k, p.1, p.2)))))

theorem tiles_calls (dot : List (α × α) → β → β) (bi bj bk M N K : Nat) (jFirst : Bool) (loc : Nat → Nat → Int)
    (prs : Nat → Nat → Nat → Nat → Nat → List (α × α)) (C : Int → β) :
    tiles dot bi bj bk M N K jFirst loc prs C = (calls bi bj bk M N K jFirst).foldl
      (fun C q => store C (loc q.2.2.2.1 q.2.2.2.2) (dot (prs q.1 q.2.1 q.2.2.1 q.2.2.2.1 q.2.2.2.2) (C (loc q.2.2.2.1 q.2.2.2.2)))) C := by
  unfold tiles calls forS
  rw [← foldl_flatMap']
  refine List.foldl_ext _ _ _ (fun C i _ => ?_)
  rw [← foldl_flatMap']
  refine List.foldl_ext _ _ _ (fun C j _ => ?_)
  rw [← foldl_flatMap']
  refine List.foldl_ext _ _ _ (fun C k _ => ?_)
  rw [List.foldl_map]
  cases jFirst
  · simp only [Bool.false_eq_true, if_false, tileList]
    rw [← foldl_flatMap']
    refine List.foldl_ext _ _ _ (fun C i _ => ?_)
    rw [List.foldl_map]
  · simp only [if_true, tileList]
    rw [← foldl_flatMap']
    refine List.foldl_ext _ _ _ (fun C i _ => ?_)
    rw [List.foldl_map]

theorem tiles_frame (dot : List (α × α) → β → β) {bi bj bk M N K : Nat} {jFirst : Bool} {loc : Nat → Nat → Int}
    (prs : Nat → Nat → Nat → Nat → Nat → List (α × α)) (C : Int → β) {l : Int} (hl : ∀ r c, r < M → c < N → loc r c ≠ l) :
    tiles dot bi bj bk M N K jFirst loc prs C l = C l := by
  rw [tiles_calls, updAll (fun q : Nat × Nat × Nat × Nat × Nat => loc q.2.2.2.1 q.2.2.2.2)
    (fun q z => dot (prs q.1 q.2.1 q.2.2.1 q.2.2.2.1 q.2.2.2.2) z)]
  have : (calls bi bj bk M N K jFirst).filter (fun q => loc q.2.2.2.1 q.2.2.2.2 = l) = [] := by
    rw [List.filter_eq_nil_iff]
    intro q hq
    unfold calls at hq
    simp only [List.mem_flatMap, List.mem_map] at hq
    obtain ⟨i, hi, j, hj, k, hk, ⟨a, b⟩, hp, rfl⟩ := hq
    have := mem_tileList.1 hp
    simp only [decide_eq_true_eq]
    exact hl a b (by omega) (by omega)
  rw [this]; rfl

/-- Every entry receives the dot product calls for the blocks of its row and column, in order. -/
theorem tiles_blocks (dot : List (α × α) → β → β) {bi bj bk M N K : Nat} (hi : 1 ≤ bi) (hj : 1 ≤ bj) (hk : 1 ≤ bk) {jFirst : Bool} {loc : Nat → Nat → Int}
    (hloc : ∀ r c r' c', r < M → c < N → r' < M → c' < N → loc r c = loc r' c' → r = r' ∧ c = c')
    (prs : Nat → Nat → Nat → Nat → Nat → List (α × α)) (C : Int → β) {r c : Nat} (hr : r < M) (hc : c < N) {e : Nat → α × α}
    (hprs : ∀ i j k, i ≤ r → r < min M (i + bi) → j ≤ c → c < min N (j + bj) → k < K → prs i j k r c = (List.range' k (min bk (K - k))).map e) :
    ∃ bs : List (List (α × α)), bs.flatten = (List.range K).map e ∧ (∀ b ∈ bs, b.length ≤ min K bk) ∧
      tiles dot bi bj bk M N K jFirst loc prs C (loc r c) = bs.foldl (fun z b => dot b z) (C (loc r c)) := by
  refine ⟨_, blocks_flatten K bk hk e, ?_, ?_⟩
  · intro b hb
    obtain ⟨k, _, rfl⟩ := List.mem_map.1 hb
    rw [List.length_map, List.length_range']
    omega
  obtain ⟨qi, hqi, hqi1, hqi2, hqiu⟩ := block_of hi hr
  obtain ⟨qj, hqj, hqj1, hqj2, hqju⟩ := block_of hj hc
  rw [tiles_calls, updAll (fun q : Nat × Nat × Nat × Nat × Nat => loc q.2.2.2.1 q.2.2.2.2)
    (fun q z => dot (prs q.1 q.2.1 q.2.2.1 q.2.2.2.1 q.2.2.2.2) z)]
  have hf : (calls bi bj bk M N K jFirst).filter (fun q => loc q.2.2.2.1 q.2.2.2.2 = loc r c)
      = (steps 0 K bk).map (fun k => (qi, qj, k, r, c)) := by
    have inner : ∀ i j k, ((tileList jFirst i (min M (i + bi)) j (min N (j + bj))).map (fun p => (i, j, k, p.1, p.2))).filter
        (fun q : Nat × Nat × Nat × Nat × Nat => decide (loc q.2.2.2.1 q.2.2.2.2 = loc r c))
        = if (i ≤ r ∧ r < min M (i + bi)) ∧ (j ≤ c ∧ c < min N (j + bj)) then [(i, j, k, r, c)] else [] := by
      intro i j k
      rw [List.filter_map]
      have := filter_unique (p := fun p : Nat × Nat => decide (loc p.1 p.2 = loc r c)) (q := (r, c))
        (tileList_nodup (jFirst := jFirst) (i := i) (hi := min M (i + bi)) (j := j) (hj := min N (j + bj)))
        (by
          rintro ⟨a, b⟩ hab hp
          have hm := mem_tileList.1 hab
          have := hloc a b r c (by omega) (by omega) hr hc (of_decide_eq_true hp)
          rw [this.1, this.2]) (by simp)
      have e2 : ((fun q : Nat × Nat × Nat × Nat × Nat => decide (loc q.2.2.2.1 q.2.2.2.2 = loc r c)) ∘ fun p : Nat × Nat => (i, j, k, p.1, p.2))
          = fun p : Nat × Nat => decide (loc p.1 p.2 = loc r c) := rfl
      rw [e2, this]
      by_cases hm : (r, c) ∈ tileList jFirst i (min M (i + bi)) j (min N (j + bj))
      · rw [if_pos hm, if_pos (mem_tileList.1 hm)]; rfl
      · rw [if_neg hm, if_neg (fun h => hm (mem_tileList.2 h))]; rfl
    unfold calls
    rw [List.filter_flatMap, flatMap_unique (steps_nodup hi) hqi]
    · rw [List.filter_flatMap, flatMap_unique (steps_nodup hj) hqj]
      · rw [List.filter_flatMap]
        have : (fun a => List.filter (fun q : Nat × Nat × Nat × Nat × Nat => decide (loc q.2.2.2.1 q.2.2.2.2 = loc r c))
            ((tileList jFirst qi (min M (qi + bi)) qj (min N (qj + bj))).map fun p => (qi, qj, a, p.1, p.2)))
            = fun k => [(qi, qj, k, r, c)] := by
          funext k
          rw [inner, if_pos ⟨⟨hqi1, hqi2⟩, hqj1, hqj2⟩]
        rw [this]
        exact (List.map_eq_flatMap (f := fun k => (qi, qj, k, r, c)) (l := steps 0 K bk)).symm
      · intro x hx hne
        rw [List.filter_flatMap, List.flatMap_eq_nil_iff]
        intro k _
        rw [inner, if_neg]
        rintro ⟨-, h⟩
        exact hne (hqju x hx h)
    · intro x hx hne
      rw [List.filter_flatMap, List.flatMap_eq_nil_iff]
      intro j _
      rw [List.filter_flatMap, List.flatMap_eq_nil_iff]
      intro k _
      rw [inner, if_neg]
      rintro ⟨h, -⟩
      exact hne (hqiu x hx h)
  rw [hf, List.foldl_map, List.foldl_map]
  refine List.foldl_ext _ _ _ ?_
  intro z k hkm
  rw [mem_steps hk] at hkm
  dsimp only
  rw [hprs qi qj k hqi1 hqi2 hqj1 hqj2 hkm.2.1]

/-- The same without the bound on the lengths of the calls. -/
theorem tiles_eq (dot : List (α × α) → β → β) {bi bj bk M N K : Nat} (hi : 1 ≤ bi) (hj : 1 ≤ bj) (hk : 1 ≤ bk) {jFirst : Bool} {loc : Nat → Nat → Int}
    (hloc : ∀ r c r' c', r < M → c < N → r' < M → c' < N → loc r c = loc r' c' → r = r' ∧ c = c')
    (prs : Nat → Nat → Nat → Nat → Nat → List (α × α)) (C : Int → β) {r c : Nat} (hr : r < M) (hc : c < N) {e : Nat → α × α}
    (hprs : ∀ i j k, i ≤ r → r < min M (i + bi) → j ≤ c → c < min N (j + bj) → k < K → prs i j k r c = (List.range' k (min bk (K - k))).map e) :
    ∃ bs : List (List (α × α)), bs.flatten = (List.range K).map e ∧
      tiles dot bi bj bk M N K jFirst loc prs C (loc r c) = bs.foldl (fun z b => dot b z) (C (loc r c)) := by
  obtain ⟨bs, h1, _, h2⟩ := tiles_blocks dot hi hj hk hloc prs C hr hc hprs (jFirst := jFirst)
  exact ⟨bs, h1, h2⟩


/-! ### buffers -/

theorem idx_inj {w u v u' v' : Nat} (hv : v < w) (hv' : v' < w) (h : (u : Int) * w + v = u' * w + v') : u = u' ∧ v = v' := by
  have h1 : u * w + v = u' * w + v' := by exact_mod_cast h
  have h2 : v = v' := by
    have := congrArg (· % w) h1
    simpa [Nat.add_comm, Nat.add_mul_mod_self_right, Nat.mod_eq_of_lt hv, Nat.mod_eq_of_lt hv'] using this
  subst h2
  exact ⟨Nat.eq_of_mul_eq_mul_right (by omega) (Nat.add_right_cancel h1), rfl⟩

theorem scaleX_spec (unit : Bool) (scl : α → α) (n : Nat) (X : Int → α) (incX : Int) (g : Int → α) {t : Nat} (ht : t < n) :
    (scaleX unit scl n X incX g).1 (t * (scaleX unit scl n X incX g).2) = (if unit then id else scl) (X (t * incX)) := by
  unfold scaleX
  cases unit
  · simp only [Bool.false_eq_true, if_false]
    unfold forS
    refine setAll (fun j : Nat => (j : Int)) (fun j : Nat => scl (X (j * incX))) _ _ ?_ ?_
    · intro k _ hk
      have : k = t := by omega
      rw [this]
    · exact Or.inr ⟨t, mem_steps1.2 ⟨by omega, ht⟩, by simp⟩
  · rfl

theorem scaleA_spec (unit : Bool) (scl : α → α) (M K : Nat) (A : Int → α) (lda : Int) (g : Int → α) {r k : Nat} (hr : r < M) (hk : k < K) :
    (scaleA unit scl M K A lda g).1 (r * (scaleA unit scl M K A lda g).2 + k) = (if unit then id else scl) (A (r * lda + k)) := by
  unfold scaleA
  cases unit
  · simp only [Bool.false_eq_true, if_false]
    rw [forS_flat2 (fun i k buf => store buf (i * (K : Int) + k) (scl (A (i * lda + k))))]
    refine setAll (fun p : Nat × Nat => (p.1 : Int) * K + p.2) (fun p : Nat × Nat => scl (A (p.1 * lda + p.2))) _ _ ?_ ?_
    · rintro ⟨a, b⟩ hab hl
      simp only [List.mem_flatMap, List.mem_map, Prod.mk.injEq] at hab
      obtain ⟨i, hi, k', hk', rfl, rfl⟩ := hab
      have := idx_inj (u := i) (v := k') (mem_steps1.1 hk').2 hk hl
      dsimp only
      rw [this.1, this.2]
    · right
      refine ⟨(r, k), ?_, rfl⟩
      simp only [List.mem_flatMap, List.mem_map, Prod.mk.injEq]
      exact ⟨r, mem_steps1.2 ⟨by omega, hr⟩, k, mem_steps1.2 ⟨by omega, hk⟩, rfl, rfl⟩
  · rfl

theorem pack_spec {xt yt : Nat} (f : α → α) {K M k i : Nat} (A : Int → α) (lda : Int) (g : Int → α) {u v : Nat} (hu : u < yt) (huM : i + u < M)
    (hv : v < xt) (hvK : k + v < K) : pack xt yt f K M k i A lda g ((u : Int) * xt + v) = f (A ((k + v : Nat) * lda + (i + u : Nat))) := by
  unfold pack
  rw [forS_flat2 (fun kk ii buf => store buf ((ii - i : Nat) * (xt : Int) + (kk - k : Nat)) (f (A (kk * lda + ii))))]
  refine setAll (fun p : Nat × Nat => ((p.2 - i : Nat) : Int) * xt + (p.1 - k : Nat)) (fun p : Nat × Nat => f (A (p.1 * lda + p.2))) _ _ ?_ ?_
  · rintro ⟨a, b⟩ hab hl
    simp only [List.mem_flatMap, List.mem_map, Prod.mk.injEq] at hab
    obtain ⟨kk, hkk, ii, hii, rfl, rfl⟩ := hab
    have h1 := mem_steps1.1 hkk
    have h2 := mem_steps1.1 hii
    have := idx_inj (show kk - k < xt by omega) hv hl
    dsimp only
    rw [show kk = k + v by omega, show ii = i + u by omega]
  · right
    refine ⟨(k + v, i + u), ?_, ?_⟩
    · simp only [List.mem_flatMap, List.mem_map, Prod.mk.injEq]
      exact ⟨k + v, mem_steps1.2 (by omega), i + u, mem_steps1.2 (by omega), rfl, rfl⟩
    · dsimp only
      rw [show i + u - i = u by omega, show k + v - k = v by omega]

/-- Block sizes as the tuner may choose them: powers of two, with tiles that hold at least one row. -/
structure GemvB.OK (b : GemvB) : Prop where
  y : ∃ e, b.y = 2 ^ e
  xy : ∃ e, b.xy = 2 ^ e
  yt : ∃ e, b.yt = 2 ^ e
  xyt : ∃ e, b.xyt = 2 ^ e
  t : ∃ e, b.t = 2 ^ e
  le : b.y ≤ b.xy
  let' : b.yt ≤ b.xyt

theorem pow_div_pow {a b x y : Nat} (hx : x = 2 ^ a) (hy : y = 2 ^ b) (h : y ≤ x) : ∃ e, x / y = 2 ^ e := by
  subst hx hy
  exact ⟨a - b, Nat.pow_div ((Nat.pow_le_pow_iff_right (by omega)).1 h) (by omega)⟩

theorem GemvB.OK.x {b : GemvB} (h : b.OK) : ∃ e, b.x = 2 ^ e := by
  obtain ⟨_, h1⟩ := h.xy
  obtain ⟨_, h2⟩ := h.y
  exact pow_div_pow h1 h2 h.le

theorem GemvB.OK.xt {b : GemvB} (h : b.OK) : ∃ e, b.xt = 2 ^ e := by
  obtain ⟨_, h1⟩ := h.xyt
  obtain ⟨_, h2⟩ := h.yt
  exact pow_div_pow h1 h2 h.let'

theorem pos_of_pow {n : Nat} (h : ∃ e, n = 2 ^ e) : 1 ≤ n := by
  obtain ⟨e, rfl⟩ := h; exact Nat.one_le_two_pow

/-- A tile of a block stays in the block: `a T < B` and both powers of two give `a T + min T B <= B`. -/
theorem tile_in {T B a v : Nat} (hT : ∃ e, T = 2 ^ e) (hB : ∃ e, B = 2 ^ e) (ha : a * T < B) (hv : v < min T B) : a * T + v < B := by
  obtain ⟨e, rfl⟩ := hT
  obtain ⟨f, rfl⟩ := hB
  rcases Nat.lt_or_ge e f with h | h
  · obtain ⟨d, rfl⟩ := Nat.exists_eq_add_of_lt h
    have e1 : 2 ^ (e + d + 1) = 2 ^ (d + 1) * 2 ^ e := by rw [← Nat.pow_add]; congr 1; omega
    rw [e1] at ha hv ⊢
    have := Nat.lt_of_mul_lt_mul_right ha
    have h2 : (a + 1) * 2 ^ e ≤ 2 ^ (d + 1) * 2 ^ e := Nat.mul_le_mul_right _ this
    rw [Nat.add_mul] at h2
    omega
  · have h1 : 2 ^ f ≤ 2 ^ e := Nat.pow_le_pow_right (by omega) h
    have : a = 0 := by
      by_contra hc
      have : 1 * 2 ^ e ≤ a * 2 ^ e := Nat.mul_le_mul_right _ (by omega)
      omega
    subst this
    omega

/-- The elements written by the transposition, in order. -/
def packTList (b : GemvB) (M N i j : Nat) : List (Nat × Nat) :=
  (steps j (min M (j + b.xt)) b.t).flatMap (fun jj => (steps i (min N (i + b.yt)) b.t).flatMap (fun ii =>
    (steps jj (min M (jj + min b.t b.xt)) 1).flatMap (fun jjj => (steps ii (min N (ii + min b.t b.yt)) 1).map (fun iii => (jjj, iii)))))

theorem packT_fold (b : GemvB) (M N i j : Nat) (A : Int → α) (lda : Int) (g : Int → α) : packT b M N i j A lda g =
    (packTList b M N i j).foldl (fun buf p => store buf (((p.2 - i : Nat) : Int) * (b.xt : Int) + (p.1 - j : Nat)) (A (p.1 * lda + p.2))) g := by
  unfold packT packTList forS
  rw [← foldl_flatMap']
  refine List.foldl_ext _ _ _ (fun s jj _ => ?_)
  rw [← foldl_flatMap']
  refine List.foldl_ext _ _ _ (fun s ii _ => ?_)
  rw [← foldl_flatMap']
  refine List.foldl_ext _ _ _ (fun s jjj _ => ?_)
  rw [List.foldl_map]

theorem mem_packTList {b : GemvB} (hb : b.OK) {M N i j a c : Nat} : (a, c) ∈ packTList b M N i j
    ↔ (j ≤ a ∧ a < M ∧ a - j < b.xt) ∧ (i ≤ c ∧ c < N ∧ c - i < b.yt) := by
  have hT := pos_of_pow hb.t
  unfold packTList
  simp only [List.mem_flatMap, List.mem_map, Prod.mk.injEq]
  constructor
  · rintro ⟨jj, hjj, ii, hii, jjj, hjjj, iii, hiii, rfl, rfl⟩
    rw [mem_steps hT] at hjj hii
    rw [mem_steps1] at hjjj hiii
    obtain ⟨h1, h2, t, rfl⟩ := hjj
    obtain ⟨h3, h4, t', rfl⟩ := hii
    have h5 := tile_in (a := t) (v := jjj - (j + t * b.t)) hb.t hb.xt (by omega) (by omega)
    have h6 := tile_in (a := t') (v := iii - (i + t' * b.t)) hb.t hb.yt (by omega) (by omega)
    omega
  · rintro ⟨⟨h1, h2, h3⟩, h4, h5, h6⟩
    have d1 := Nat.div_add_mod (a - j) b.t
    have d2 := Nat.mod_lt (a - j) hT
    have d3 := Nat.div_add_mod (c - i) b.t
    have d4 := Nat.mod_lt (c - i) hT
    rw [Nat.mul_comm] at d1 d3
    have l1 := Nat.mod_le (a - j) b.t
    have l2 := Nat.mod_le (c - i) b.t
    refine ⟨j + (a - j) / b.t * b.t, (mem_steps hT).2 ⟨by omega, by omega, _, rfl⟩,
      i + (c - i) / b.t * b.t, (mem_steps hT).2 ⟨by omega, by omega, _, rfl⟩, a, mem_steps1.2 (by omega), c, mem_steps1.2 (by omega), rfl, rfl⟩

theorem packT_spec {b : GemvB} (hb : b.OK) {M N i j : Nat} (A : Int → α) (lda : Int) (g : Int → α) {u v : Nat} (hu : u < b.yt) (huN : i + u < N)
    (hv : v < b.xt) (hvM : j + v < M) : packT b M N i j A lda g ((u : Int) * b.xt + v) = A ((j + v : Nat) * lda + (i + u : Nat)) := by
  rw [packT_fold]
  refine setAll (fun p : Nat × Nat => ((p.2 - i : Nat) : Int) * b.xt + (p.1 - j : Nat)) (fun p : Nat × Nat => A (p.1 * lda + p.2)) _ _ ?_ ?_
  · rintro ⟨a, c⟩ hac hl
    have hm := (mem_packTList hb).1 hac
    have := idx_inj hm.1.2.2 hv hl
    dsimp only
    rw [show a = j + v by omega, show c = i + u by omega]
  · right
    refine ⟨(j + v, i + u), (mem_packTList hb).2 (by omega), ?_⟩
    dsimp only
    rw [show i + u - i = u by omega, show j + v - j = v by omega]

end Repro

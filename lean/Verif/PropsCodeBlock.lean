import Verif.CodeBlock
/-!
# C84: the text assembled by the code generators
-/

namespace Repro
namespace Cb

/-! ### Specification: what a history of calls should print -/

/-- The lines of a chunk at depth `n`. -/
def linesAt (n : Nat) (chunk : Str) : List Str := (splitNL chunk).map (pad n ++ ·)

/-- The chunks included in block `id` by a history, in order. -/
def inclusions (id : Nat) (evs : List (Nat × Op)) : List Str := evs.filterMap fun e => match e with | (j, .incl c) => if j = id then some c else none | _ => none

/-- A list without repetitions, first occurrences kept. -/
def firsts : List Str → List Str
  | [] => []
  | c :: cs => c :: (firsts cs).filter (· ≠ c)

/-- The lines that the calls `evs` add to block `id`, which is at depth `depth`, when `k` blocks exist: the chunks written, in order and at their depths; and in the place of a block created, all that is - later - included in and
written to that block. -/
def body : List (Nat × Op) → Nat → Nat → Nat → List Str
  | [], _, _, _ => []
  | (j, op) :: evs, id, depth, k =>
    if j = id then match op with
      | .indent => body evs id (depth + 1) k
      | .dedent => body evs id (depth - 1) k
      | .write c => linesAt depth c ++ body evs id depth k
      | .incl _ => body evs id depth k
      | .defineVars t vs => linesAt depth (declare t vs) ++ body evs id depth k
      | .setEqual as bs => (as.zip bs).flatMap (fun p => linesAt depth (assign p)) ++ body evs id depth k
      | .newLine => body evs id depth k
      | .subBlock => ((firsts (inclusions k evs)).flatMap (linesAt depth) ++ body evs k depth (k + 1)) ++ body evs id depth (k + 1)
    else body evs id depth (match op with | .subBlock => k + 1 | _ => k)

/-- All lines of a block created at depth `depth`: first what was included, once each, then what was written. -/
def text (evs : List (Nat × Op)) (id depth k : Nat) : List Str := (firsts (inclusions id evs)).flatMap (linesAt depth) ++ body evs id depth k

/-- Without the empty lines. -/
def full (ls : List Str) : List Str := ls.filter (· ≠ [])

/-! ### Lines -/

theorem splitNL_ne (s : Str) : splitNL s ≠ [] := by
  cases s with
  | nil => simp [splitNL]
  | cons c s =>
    unfold splitNL
    split
    · simp
    · split <;> simp

theorem splitNL_cons (c : Char) (s : Str) : splitNL (c :: s) = if c = '\n' then [] :: splitNL s else match splitNL s with
    | [] => [[c]]
    | l :: ls => (c :: l) :: ls := rfl

theorem flatMap_congr' {α β : Type} {f g : α → List β} : ∀ {l : List α}, (∀ x ∈ l, f x = g x) → l.flatMap f = l.flatMap g
  | [], _ => rfl
  | x :: l, h => by rw [List.flatMap_cons, List.flatMap_cons, h x (by simp), flatMap_congr' (l := l) (fun y hy => h y (by simp [hy]))]

theorem splitNL_append (a b : Str) : splitNL (a ++ '\n' :: b) = splitNL a ++ splitNL b := by
  induction a with
  | nil => simp [splitNL]
  | cons c a ih =>
    rw [List.cons_append, splitNL_cons, splitNL_cons c a, ih]
    split
    · rfl
    · cases h : splitNL a with
      | nil => exact absurd h (splitNL_ne a)
      | cons l ls => rfl

theorem splitNL_join : ∀ {ls : List Str}, ls ≠ [] → splitNL (joinNL ls) = ls.flatMap splitNL
  | [], h => absurd rfl h
  | [l], _ => by simp [joinNL]
  | l :: l' :: ls, _ => by
    rw [joinNL, splitNL_append, splitNL_join (ls := l' :: ls) (by simp)]
    rfl

theorem full_append (a b : List Str) : full (a ++ b) = full a ++ full b := List.filter_append _ _

theorem full_join (ls : List Str) : full (splitNL (joinNL ls)) = ls.flatMap fun l => full (splitNL l) := by
  by_cases h : ls = []
  · subst h; rfl
  · rw [splitNL_join h]; unfold full; rw [List.filter_flatMap]

theorem splitNL_single {l : Str} (h : '\n' ∉ l) : splitNL l = [l] := by
  induction l with
  | nil => rfl
  | cons c l ih =>
    unfold splitNL
    rw [if_neg (fun e => h (by rw [e]; simp)), ih (fun e => h (by simp [e]))]

theorem splitNL_lines : ∀ (s : Str), ∀ l ∈ splitNL s, '\n' ∉ l
  | [], l, hl => by simp [splitNL] at hl; subst hl; simp
  | c :: s, l, hl => by
    have ih := splitNL_lines s
    unfold splitNL at hl
    split at hl
    · rcases List.mem_cons.1 hl with rfl | hl
      · simp
      · exact ih l hl
    · next hc =>
      split at hl
      · rw [List.mem_singleton] at hl; subst hl
        intro h; rw [List.mem_singleton] at h; exact hc h.symm
      · next l' ls he =>
        rcases List.mem_cons.1 hl with rfl | hl
        · intro h
          rcases List.mem_cons.1 h with h | h
          · exact hc h.symm
          · exact ih l' (by rw [he]; simp) h
        · exact ih l (by rw [he]; simp [hl])

theorem split_padded (n : Nat) (chunk : Str) : splitNL (padded n chunk) = linesAt n chunk := by
  unfold padded linesAt
  rw [splitNL_join (by simp [splitNL_ne])]
  have : ∀ l ∈ (splitNL chunk).map (pad n ++ ·), splitNL l = [l] := fun l hl => by
    obtain ⟨l', h', rfl⟩ := List.mem_map.1 hl
    refine splitNL_single fun h => ?_
    rcases List.mem_append.1 h with h | h
    · unfold pad at h; have := List.eq_of_mem_replicate h; cases this
    · exact splitNL_lines chunk l' h' h
  rw [flatMap_congr' this]
  generalize (splitNL chunk).map (pad n ++ ·) = ls
  induction ls with
  | nil => rfl
  | cons l ls ih => rw [List.flatMap_cons, ih]; rfl

/-! ### The simulation -/

/-- The lines of an element in the final state. -/
def itemLines (n : Nat) (h : Heap) : Item → List Str
  | .text s => full (splitNL s)
  | .sub j => full (splitNL (str n h j))

theorem full_str {n : Nat} {h : Heap} {id : Nat} {b : Block} (hb : h[id]? = some b) :
    full (splitNL (str (n + 1) h id)) = b.includes.flatMap (fun s => full (splitNL s)) ++ b.blocks.flatMap (itemLines n h) := by
  rw [str, hb]
  show full (splitNL (joinNL _ ++ '\n' :: [])) = _
  rw [splitNL_append, full_append, full_join, List.flatMap_append]
  have e1 : (if b.includes = [] then [] else b.includes ++ [[]]).flatMap (fun s => full (splitNL s)) = b.includes.flatMap fun s => full (splitNL s) := by
    split
    · next h => rw [h]
    · rw [List.flatMap_append]; simp [splitNL, full]
  rw [e1, List.flatMap_map]
  have e2 : full (splitNL []) = [] := rfl
  rw [e2, List.append_nil]
  congr 1
  refine flatMap_congr' fun i _ => ?_
  cases i <;> rfl

theorem inclusions_cons_ne {j id : Nat} {op : Op} {evs : List (Nat × Op)} (h : j ≠ id) : inclusions id ((j, op) :: evs) = inclusions id evs := by
  unfold inclusions
  rw [List.filterMap_cons]
  cases op <;> simp [h]

theorem inclusions_cons_op {j id : Nat} {op : Op} {evs : List (Nat × Op)} (h : ∀ c, op ≠ .incl c) : inclusions id ((j, op) :: evs) = inclusions id evs := by
  unfold inclusions
  rw [List.filterMap_cons]
  cases op <;> first | rfl | exact absurd rfl (h _)

theorem inclusions_cons_self {id : Nat} {c : Str} {evs : List (Nat × Op)} : inclusions id ((id, .incl c) :: evs) = c :: inclusions id evs := by
  unfold inclusions
  rw [List.filterMap_cons]
  simp

theorem body_ne {j id : Nat} {op : Op} {evs : List (Nat × Op)} {d k : Nat} (h : j ≠ id) :
    body ((j, op) :: evs) id d k = body evs id d (match op with | .subBlock => k + 1 | _ => k) := by
  cases op <;> simp [body, h]

/-- What the rest of a history does to an existing block. -/
def Grows (h' : Heap) (evs : List (Nat × Op)) (id k : Nat) (b b' : Block) : Prop :=
  b'.base = b.base ∧ (∃ ni, b'.includes = b.includes ++ ni ∧ ni = ((firsts (inclusions id evs)).filter (· ∉ b.included)).map (padded b.base)) ∧
  ∃ nb, b'.blocks = b.blocks ++ nb ∧ ∀ n, h'.length ≤ n + id + 1 → nb.flatMap (itemLines n h') = full (body evs id b.level k)

theorem full_flatMap {β : Type} (f : β → List Str) (l : List β) : full (l.flatMap f) = l.flatMap fun x => full (f x) := by
  unfold full; rw [List.filter_flatMap]

theorem foldl_write (l : List (Str × Str)) : ∀ b : Block, (l.foldl (fun b p => b.write (assign p)) b) = { b with blocks := b.blocks ++ l.map fun p => .text (padded b.level (assign p)) } := by
  induction l with
  | nil => intro b; simp
  | cons p l ih => intro b; rw [List.foldl_cons, ih]; simp [Block.write]

theorem run_grows : ∀ (evs : List (Nat × Op)) (h h' : Heap), run h evs = some h' → h.length ≤ h'.length ∧ ∀ id b, h[id]? = some b → ∃ b', h'[id]? = some b' ∧ Grows h' evs id h.length b b'
  | [], h, h', hr => by
    obtain rfl : h = h' := by simpa [run] using hr
    exact ⟨Nat.le_refl _, fun id b hb => ⟨b, hb, rfl, ⟨[], by simp, rfl⟩, [], by simp, fun n _ => rfl⟩⟩
  | (j, op) :: evs, h, h', hr => by
    rw [run] at hr
    obtain ⟨h1, hs, hr⟩ := Option.bind_eq_some_iff.1 hr
    obtain ⟨hlen, ih⟩ := run_grows evs h1 h' hr
    unfold step at hs
    obtain ⟨bj, hbj, hs⟩ := Option.bind_eq_some_iff.1 hs
    have hj : j < h.length := (List.getElem?_eq_some_iff.1 hbj).1
    -- an operation that changes block `j` only
    have one : ∀ b1 : Block, h1 = h.set j b1 → op ≠ .subBlock → (∀ b', Grows h' evs j h.length b1 b' → Grows h' ((j, op) :: evs) j h.length bj b') →
        h.length ≤ h'.length ∧ ∀ id b, h[id]? = some b → ∃ b', h'[id]? = some b' ∧ Grows h' ((j, op) :: evs) id h.length b b' := by
      intro b1 he hop hg
      subst he
      rw [List.length_set] at hlen ih
      refine ⟨hlen, fun id b hb => ?_⟩
      by_cases hid : j = id
      · subst hid
        obtain rfl : bj = b := by rw [hbj] at hb; exact Option.some.inj hb
        obtain ⟨b', h1', h2'⟩ := ih j b1 (by rw [List.getElem?_set_self hj])
        exact ⟨b', h1', hg b' h2'⟩
      · obtain ⟨b', h1', h2'⟩ := ih id b (by rw [List.getElem?_set_ne hid]; exact hb)
        refine ⟨b', h1', ?_⟩
        unfold Grows at h2' ⊢
        rw [inclusions_cons_ne hid, body_ne hid]
        cases op <;> first | exact h2' | exact absurd rfl hop
    -- an operation that appends texts
    have texts : ∀ (ts : List Str), h1 = h.set j { bj with blocks := bj.blocks ++ ts.map .text } → op ≠ .subBlock → (∀ c, op ≠ .incl c) →
        full (body ((j, op) :: evs) j bj.level h.length) = ts.flatMap (fun s => full (splitNL s)) ++ full (body evs j bj.level h.length) →
        h.length ≤ h'.length ∧ ∀ id b, h[id]? = some b → ∃ b', h'[id]? = some b' ∧ Grows h' ((j, op) :: evs) id h.length b b' := by
      intro ts he hop hin hb
      refine one _ he hop fun b' hg => ?_
      obtain ⟨g1, ⟨ni, g2, g3⟩, nb, g4, g5⟩ := hg
      refine ⟨g1, ⟨ni, g2, ?_⟩, ts.map .text ++ nb, by rw [g4]; simp, fun n hn => ?_⟩
      · rw [inclusions_cons_op hin]; exact g3
      · rw [List.flatMap_append, g5 n hn, hb, List.flatMap_map]
        rfl
    cases op with
    | indent =>
      refine one _ (Option.some.inj hs).symm (fun h => (nomatch h)) fun b' hg => ?_
      obtain ⟨g1, ⟨ni, g2, g3⟩, nb, g4, g5⟩ := hg
      exact ⟨g1, ⟨ni, g2, by rw [inclusions_cons_op (op := .indent) (fun _ h => (nomatch h))]; exact g3⟩, nb, g4, fun n hn => by rw [g5 n hn, body, if_pos rfl]⟩
    | dedent =>
      dsimp only at hs
      split at hs
      · refine one _ (Option.some.inj hs).symm (fun h => (nomatch h)) fun b' hg => ?_
        obtain ⟨g1, ⟨ni, g2, g3⟩, nb, g4, g5⟩ := hg
        exact ⟨g1, ⟨ni, g2, by rw [inclusions_cons_op (op := .dedent) (fun _ h => (nomatch h))]; exact g3⟩, nb, g4, fun n hn => by rw [g5 n hn, body, if_pos rfl]⟩
      · cases hs
    | write c =>
      refine texts [padded bj.level c] (Option.some.inj hs).symm (fun h => (nomatch h)) (fun _ h => (nomatch h)) ?_
      rw [body, if_pos rfl, full_append]
      simp [split_padded]
    | defineVars t vs =>
      refine texts [padded bj.level (declare t vs)] (Option.some.inj hs).symm (fun h => (nomatch h)) (fun _ h => (nomatch h)) ?_
      rw [body, if_pos rfl, full_append]
      simp [split_padded]
    | setEqual as bs =>
      refine texts ((as.zip bs).map fun p => padded bj.level (assign p)) ?_ (fun h => (nomatch h)) (fun _ h => (nomatch h)) ?_
      · rw [← Option.some.inj hs, foldl_write, List.map_map]; rfl
      · rw [body, if_pos rfl, full_append, full_flatMap, List.flatMap_map]
        simp [split_padded]
    | newLine =>
      refine texts [[]] (Option.some.inj hs).symm (fun h => (nomatch h)) (fun _ h => (nomatch h)) ?_
      rw [body, if_pos rfl]
      simp [splitNL, full]
    | incl c =>
      dsimp only at hs
      have hset : h.set j bj = h := by
        refine List.ext_getElem? fun i => ?_
        by_cases hi : j = i
        · subst hi; rw [List.getElem?_set_self hj, hbj]
        · rw [List.getElem?_set_ne hi]
      split at hs
      · next hc =>
        refine one bj (by rw [hset]; exact (Option.some.inj hs).symm) (fun h => (nomatch h)) fun b' hg => ?_
        obtain ⟨g1, ⟨ni, g2, g3⟩, nb, g4, g5⟩ := hg
        refine ⟨g1, ⟨ni, g2, ?_⟩, nb, g4, fun n hn => by rw [g5 n hn, body, if_pos rfl]⟩
        rw [g3, inclusions_cons_self, firsts, List.filter_cons_of_neg (by simpa using hc), List.filter_filter]
        congr 1
        refine List.filter_congr fun x _ => ?_
        by_cases hx : x ∈ bj.included
        · simp [hx]
        · have : x ≠ c := fun e => hx (e ▸ hc)
          simp [hx, this]
      · next hc =>
        refine one _ (Option.some.inj hs).symm (fun h => (nomatch h)) fun b' hg => ?_
        obtain ⟨g1, ⟨ni, g2, g3⟩, nb, g4, g5⟩ := hg
        refine ⟨g1, ⟨padded bj.base c :: ni, by rw [g2]; simp, ?_⟩, nb, g4, fun n hn => by rw [g5 n hn, body, if_pos rfl]⟩
        rw [g3, inclusions_cons_self, firsts, List.filter_cons_of_pos (by simpa using hc), List.map_cons, List.filter_filter]
        congr 2
        refine List.filter_congr fun x _ => ?_
        simp [Bool.and_comm]
    | subBlock =>
      obtain rfl := (Option.some.inj hs).symm
      have hl1 : (h.set j { bj with blocks := bj.blocks ++ [.sub h.length] } ++ [new bj.level]).length = h.length + 1 := by simp
      rw [hl1] at hlen ih
      refine ⟨by omega, fun id b hb => ?_⟩
      have hid : id < h.length := (List.getElem?_eq_some_iff.1 hb).1
      -- the new block
      obtain ⟨bk, hk1, hk2⟩ := ih h.length (new bj.level) (by rw [List.getElem?_append_right (by simp)]; simp)
      by_cases hji : j = id
      · subst hji
        obtain rfl : bj = b := by rw [hbj] at hb; exact Option.some.inj hb
        obtain ⟨b', h1', h2'⟩ := ih j { bj with blocks := bj.blocks ++ [.sub h.length] } (by rw [List.getElem?_append_left (by simpa using hj), List.getElem?_set_self hj])
        refine ⟨b', h1', ?_⟩
        obtain ⟨g1, ⟨ni, g2, g3⟩, nb, g4, g5⟩ := h2'
        obtain ⟨k1, ⟨ki, k2, k3⟩, kb, k4, k5⟩ := hk2
        refine ⟨g1, ⟨ni, g2, by rw [inclusions_cons_op (op := .subBlock) (fun _ h => (nomatch h))]; exact g3⟩, .sub h.length :: nb, by rw [g4]; simp, fun n hn => ?_⟩
        rw [List.flatMap_cons, g5 n hn, body, if_pos rfl, full_append]
        congr 1
        show full (splitNL (str n h' h.length)) = _
        obtain ⟨n, rfl⟩ : ∃ m, n = m + 1 := ⟨n - 1, by omega⟩
        rw [full_str hk1, full_append, k2, k4]
        have e1 : (new bj.level).includes = [] := rfl
        have e2 : (new bj.level).blocks = [] := rfl
        rw [e1, e2, List.nil_append, List.nil_append, k5 n (by omega), k3]
        congr 1
        rw [List.flatMap_map, full_flatMap]
        have e3 : (firsts (inclusions h.length evs)).filter (· ∉ (new bj.level).included) = firsts (inclusions h.length evs) := by
          rw [List.filter_eq_self]; intro a _; simp [new]
        rw [e3]
        refine flatMap_congr' fun c _ => ?_
        rw [split_padded]; rfl
      · obtain ⟨b', h1', h2'⟩ := ih id b (by rw [List.getElem?_append_left (by simpa using hid), List.getElem?_set_ne hji]; exact hb)
        refine ⟨b', h1', ?_⟩
        unfold Grows at h2' ⊢
        rw [inclusions_cons_ne hji, body_ne hji]
        exact h2'

/-- **C84** (text). Whatever sequence of calls is made on a code block and on the blocks inside it - in any order, the ones inside also after the outer ones have gone on -: the text has, apart from empty lines, first every chunk that was
included, once, in the order of first inclusion, then the chunks written in order, at their depth, and in the place where a block inside was created the text of that block. -/
theorem C84_text {evs : List (Nat × Op)} {s : Str} (h : generate evs = some s) : full (splitNL s) = full (text evs 0 0 1) := by
  unfold generate at h
  obtain ⟨h', hr, rfl⟩ := Option.map_eq_some_iff.1 h
  obtain ⟨hl, H⟩ := run_grows evs [new 0] h' hr
  obtain ⟨b', hb, g1, ⟨ni, g2, g3⟩, nb, g4, g5⟩ := H 0 (new 0) rfl
  have hl : 1 ≤ h'.length := hl
  obtain ⟨n, hn⟩ : ∃ n, h'.length = n + 1 := ⟨h'.length - 1, by omega⟩
  rw [hn, full_str hb, g2, g4]
  have e1 : (new 0).includes = [] := rfl
  have e2 : (new 0).blocks = [] := rfl
  rw [e1, e2, List.nil_append, List.nil_append, g5 n (by omega), g3]
  unfold text
  rw [full_append]
  congr 1
  rw [List.flatMap_map, full_flatMap]
  have e3 : (firsts (inclusions 0 evs)).filter (· ∉ (new 0).included) = firsts (inclusions 0 evs) := by
    rw [List.filter_eq_self]; intro a _; simp [new]
  rw [e3]
  refine flatMap_congr' fun c _ => ?_
  rw [split_padded]; rfl

/-! ### The assertion in `dedent` -/

/-- How often block `id` was indented. -/
def ups (id : Nat) (evs : List (Nat × Op)) : Nat := evs.countP fun e => match e with | (j, .indent) => j == id | _ => false
/-- How often block `id` was dedented. -/
def downs (id : Nat) (evs : List (Nat × Op)) : Nat := evs.countP fun e => match e with | (j, .dedent) => j == id | _ => false
/-- How many blocks were created inside others. -/
def made (evs : List (Nat × Op)) : Nat := evs.countP fun e => match e with | (_, .subBlock) => true | _ => false
/-- Every call is on a block that exists: blocks have the numbers 0 (the outermost), 1, 2, ... in the order of creation. -/
def Exist (evs : List (Nat × Op)) : Prop := ∀ pre id op post, evs = pre ++ (id, op) :: post → id ≤ made pre

theorem run_append : ∀ (a b : List (Nat × Op)) (h : Heap), run h (a ++ b) = (run h a).bind fun h => run h b
  | [], b, h => rfl
  | (id, op) :: a, b, h => by
    rw [List.cons_append, run, run]
    cases step h id op with
    | none => rfl
    | some h1 => exact run_append a b h1

/-- The state after the calls `pre`. -/
structure Counts (pre : List (Nat × Op)) (h : Heap) : Prop where
  len : h.length = 1 + made pre
  depth : ∀ {id b}, h[id]? = some b → b.level + downs id pre = b.base + ups id pre ∧ b.base ≤ b.level
  zero : ∀ {id}, h.length ≤ id → downs id pre = 0 ∧ ups id pre = 0

theorem foldl_write_fields (l : List (Str × Str)) (b : Block) : (l.foldl (fun b p => b.write (assign p)) b).level = b.level ∧ (l.foldl (fun b p => b.write (assign p)) b).base = b.base := by
  rw [foldl_write]; exact ⟨rfl, rfl⟩

theorem Counts.step {pre : List (Nat × Op)} {h h1 : Heap} {j : Nat} {op : Op} (H : Counts pre h) (hs : Cb.step h j op = some h1) : Counts (pre ++ [(j, op)]) h1 := by
  unfold Cb.step at hs
  obtain ⟨bj, hbj, hs⟩ := Option.bind_eq_some_iff.1 hs
  have hj : j < h.length := (List.getElem?_eq_some_iff.1 hbj).1
  -- an operation that changes block `j` only
  have one : ∀ b1 : Block, h1 = h.set j b1 → op ≠ .subBlock → b1.level + downs j [(j, op)] + bj.base = bj.level + b1.base + ups j [(j, op)] → b1.base ≤ b1.level → Counts (pre ++ [(j, op)]) h1 := by
    intro b1 he hop hd hb
    subst he
    have other : ∀ {id}, j ≠ id → downs id [(j, op)] = 0 ∧ ups id [(j, op)] = 0 := fun {id} hid => by
      constructor <;> cases op <;> simp [downs, ups, hid]
    refine ⟨?_, fun {id b} hb' => ?_, fun {id} hid => ?_⟩
    · rw [List.length_set, H.len]; unfold made; rw [List.countP_append]
      cases op <;> first | rfl | exact absurd rfl hop
    · by_cases hji : j = id
      · subst hji
        rw [List.getElem?_set_self hj] at hb'
        obtain rfl := Option.some.inj hb'
        have h0 := (H.depth hbj).1
        unfold downs ups at h0 hd ⊢
        rw [List.countP_append, List.countP_append]
        exact ⟨by omega, hb⟩
      · rw [List.getElem?_set_ne hji] at hb'
        have h0 := H.depth hb'
        have h1 := other hji
        unfold downs ups at h0 h1 ⊢
        rw [List.countP_append, List.countP_append]
        exact ⟨by omega, h0.2⟩
    · rw [List.length_set] at hid
      have h0 := H.zero hid
      have h1 := other (show j ≠ id by omega)
      unfold downs ups at h0 h1 ⊢
      rw [List.countP_append, List.countP_append]
      omega
  have h0 := H.depth hbj
  cases op with
  | indent => exact one _ (Option.some.inj hs).symm (fun h => (nomatch h)) (by simp [downs, ups]; omega) (by show bj.base ≤ bj.level + 1; omega)
  | dedent =>
    dsimp only at hs
    split at hs
    · exact one _ (Option.some.inj hs).symm (fun h => (nomatch h)) (by simp [downs, ups]; omega) (by show bj.base ≤ bj.level - 1; omega)
    · cases hs
  | write c => exact one _ (Option.some.inj hs).symm (fun h => (nomatch h)) (by simp [downs, ups, Block.write]) h0.2
  | defineVars t vs => exact one _ (Option.some.inj hs).symm (fun h => (nomatch h)) (by simp [downs, ups, Block.write]) h0.2
  | setEqual as bs =>
    have hf := foldl_write_fields (as.zip bs) bj
    exact one _ (Option.some.inj hs).symm (fun h => (nomatch h)) (by rw [hf.1, hf.2]; simp [downs, ups]) (by rw [hf.1, hf.2]; exact h0.2)
  | newLine => exact one _ (Option.some.inj hs).symm (fun h => (nomatch h)) (by simp [downs, ups]) h0.2
  | incl c =>
    dsimp only at hs
    split at hs
    · have hset : h.set j bj = h := by
        refine List.ext_getElem? fun i => ?_
        by_cases hi : j = i
        · subst hi; rw [List.getElem?_set_self hj, hbj]
        · rw [List.getElem?_set_ne hi]
      exact one bj (by rw [hset]; exact (Option.some.inj hs).symm) (fun h => (nomatch h)) (by simp [downs, ups]) h0.2
    · exact one _ (Option.some.inj hs).symm (fun h => (nomatch h)) (by simp [downs, ups]) h0.2
  | subBlock =>
    obtain rfl := (Option.some.inj hs).symm
    have hl1 : (h.set j { bj with blocks := bj.blocks ++ [.sub h.length] } ++ [new bj.level]).length = h.length + 1 := by simp
    have e1 : ∀ id, downs id (pre ++ [(j, .subBlock)]) = downs id pre := fun id => by unfold downs; rw [List.countP_append]; rfl
    have e2 : ∀ id, ups id (pre ++ [(j, .subBlock)]) = ups id pre := fun id => by unfold ups; rw [List.countP_append]; rfl
    refine ⟨?_, fun {id b} hb' => ?_, fun {id} hid => ?_⟩
    · rw [hl1, H.len]; unfold made; rw [List.countP_append]; simp; omega
    · rw [e1, e2]
      by_cases hid : id < h.length
      · rw [List.getElem?_append_left (by simpa using hid)] at hb'
        by_cases hji : j = id
        · subst hji
          rw [List.getElem?_set_self hj] at hb'
          obtain rfl := Option.some.inj hb'
          exact h0
        · rw [List.getElem?_set_ne hji] at hb'
          exact H.depth hb'
      · have : id = h.length := by
          have := (List.getElem?_eq_some_iff.1 hb').1
          omega
        subst this
        rw [List.getElem?_append_right (by simp)] at hb'
        obtain rfl : new bj.level = b := by simpa using hb'
        have := H.zero (Nat.le_refl _)
        exact ⟨by rw [this.1, this.2]; rfl, Nat.le_refl _⟩
    · rw [e1, e2]; rw [hl1] at hid; exact H.zero (by omega)

theorem Counts.run : ∀ (evs pre : List (Nat × Op)) (h h' : Heap), Counts pre h → Cb.run h evs = some h' → Counts (pre ++ evs) h'
  | [], pre, h, h', H, hr => by
    obtain rfl : h = h' := by simpa [Cb.run] using hr
    simpa using H
  | (j, op) :: evs, pre, h, h', H, hr => by
    rw [Cb.run] at hr
    obtain ⟨h1, hs, hr⟩ := Option.bind_eq_some_iff.1 hr
    have := Counts.run evs (pre ++ [(j, op)]) h1 h' (H.step hs) hr
    simpa using this

theorem Counts.start : Counts [] [new 0] := by
  refine ⟨rfl, fun {id b} hb => ?_, fun _ => ⟨rfl, rfl⟩⟩
  cases id with
  | zero => obtain rfl := Option.some.inj hb; exact ⟨rfl, Nat.le_refl _⟩
  | succ n => cases hb

theorem run_none : ∀ (evs pre : List (Nat × Op)) (h : Heap), Counts pre h → Exist (pre ++ evs) → run h evs = none →
    ∃ p id post, pre ++ evs = p ++ (id, .dedent) :: post ∧ ups id p ≤ downs id p
  | [], pre, h, H, he, hr => by cases hr
  | (j, op) :: evs, pre, h, H, he, hr => by
    rw [run] at hr
    cases hs : step h j op with
    | some h1 =>
      rw [hs] at hr
      obtain ⟨p, id, post, h1, h2⟩ := run_none evs (pre ++ [(j, op)]) h1 (H.step hs) (by simpa using he) hr
      exact ⟨p, id, post, by simpa using h1, h2⟩
    | none =>
      have hj : j < h.length := by have := he pre j op evs rfl; rw [H.len]; omega
      have hb : h[j]? = some h[j] := List.getElem?_eq_getElem hj
      unfold step at hs
      rw [hb] at hs
      cases op with
      | dedent =>
        have h0 := (H.depth hb).1
        have : ¬ (h[j].level > h[j].base) := fun hc => by
          have hs : (if h[j].level > h[j].base then _ else _) = none := hs
          rw [if_pos hc] at hs; cases hs
        exact ⟨pre, j, evs, rfl, by omega⟩
      | incl c =>
        have hs : (if c ∈ h[j].included then _ else _) = none := hs
        split at hs <;> cases hs
      | _ => cases hs

/-- **C84** (assertion). A generator is stopped by the assertion in `dedent` exactly if, at some call of `dedent`, the block has been dedented as often as indented since it was created; and by nothing else. -/
theorem C84_dedent {evs : List (Nat × Op)} (he : Exist evs) : generate evs = none ↔ ∃ pre id post, evs = pre ++ (id, .dedent) :: post ∧ ups id pre ≤ downs id pre := by
  unfold generate
  rw [Option.map_eq_none_iff]
  constructor
  · intro h
    simpa using run_none evs [] [new 0] Counts.start (by simpa using he) h
  · rintro ⟨pre, id, post, rfl, hd⟩
    rw [run_append]
    cases hr : run [new 0] pre with
    | none => rfl
    | some h =>
      have H : Counts pre h := by simpa using Counts.run pre [] _ _ Counts.start hr
      show run h _ = none
      rw [run]
      have : step h id .dedent = none := by
        unfold step
        cases hb : h[id]? with
        | none => rfl
        | some b =>
          have h0 := (H.depth hb).1
          show (if b.level > b.base then _ else _) = none
          rw [if_neg (by omega)]
      rw [this]; rfl

/-! ### Nesting -/

/-- A line is empty or starts with the indentation of depth `n`. -/
def Inside (n : Nat) (l : Str) : Prop := l = [] ∨ pad n <+: l

theorem pad_prefix {m n : Nat} (h : m ≤ n) : pad m <+: pad n := by
  refine ⟨pad (n - m), ?_⟩
  unfold pad
  rw [List.replicate_append_replicate]
  congr 1; omega

theorem Inside.mono {m n : Nat} (h : m ≤ n) {l : Str} : Inside n l → Inside m l
  | .inl e => .inl e
  | .inr e => .inr ((pad_prefix h).trans e)

theorem padded_inside {m n : Nat} (h : m ≤ n) (c : Str) : ∀ l ∈ splitNL (padded n c), Inside m l := by
  intro l hl
  rw [split_padded] at hl
  obtain ⟨l', _, rfl⟩ := List.mem_map.1 hl
  exact .inr ((pad_prefix h).trans (List.prefix_append _ _))

/-- What is in the blocks. -/
structure Nested (h : Heap) : Prop where
  level : ∀ {b}, b ∈ h → b.base ≤ b.level
  incl : ∀ {b s}, b ∈ h → s ∈ b.includes → ∀ l ∈ splitNL s, Inside b.base l
  text : ∀ {b s}, b ∈ h → .text s ∈ b.blocks → ∀ l ∈ splitNL s, Inside b.base l
  sub : ∀ {b j}, b ∈ h → .sub j ∈ b.blocks → ∃ b', h[j]? = some b' ∧ b.base ≤ b'.base

theorem Nested.set {h : Heap} {j : Nat} {b b1 : Block} (H : Nested h) (hb : h[j]? = some b) (h1 : b1.base = b.base) (h2 : b1.base ≤ b1.level)
    (h3 : ∀ s ∈ b1.includes, s ∈ b.includes ∨ ∀ l ∈ splitNL s, Inside b.base l)
    (h4 : ∀ i ∈ b1.blocks, i ∈ b.blocks ∨ ∃ s, i = .text s ∧ ∀ l ∈ splitNL s, Inside b.base l) : Nested (h.set j b1) := by
  have hj : j < h.length := (List.getElem?_eq_some_iff.1 hb).1
  have hm : b ∈ h := List.mem_of_getElem? hb
  refine ⟨fun {x} hx => ?_, fun {x s} hx hs => ?_, fun {x s} hx hs => ?_, fun {x i} hx hi => ?_⟩
  · rcases List.mem_or_eq_of_mem_set hx with hx | rfl
    · exact H.level hx
    · exact h2
  · rcases List.mem_or_eq_of_mem_set hx with hx | rfl
    · exact H.incl hx hs
    · rw [h1]
      rcases h3 s hs with hs | hs
      · exact H.incl hm hs
      · exact hs
  · rcases List.mem_or_eq_of_mem_set hx with hx | rfl
    · exact H.text hx hs
    · rw [h1]
      rcases h4 _ hs with hs | ⟨s', he, hs⟩
      · exact H.text hm hs
      · cases he; exact hs
  · have key : ∃ b', h[i]? = some b' ∧ x.base ≤ b'.base := by
      rcases List.mem_or_eq_of_mem_set hx with hx | rfl
      · exact H.sub hx hi
      · rw [h1]
        rcases h4 _ hi with hs | ⟨s', he, hs⟩
        · exact H.sub hm hs
        · cases he
    obtain ⟨b', hb', hle⟩ := key
    by_cases hji : j = i
    · subst hji
      obtain rfl : b = b' := by rw [hb] at hb'; exact Option.some.inj hb'
      exact ⟨b1, List.getElem?_set_self hj, by omega⟩
    · exact ⟨b', by rw [List.getElem?_set_ne hji]; exact hb', hle⟩

theorem Nested.step {h h1 : Heap} {j : Nat} {op : Op} (H : Nested h) (hs : Cb.step h j op = some h1) : Nested h1 := by
  unfold Cb.step at hs
  obtain ⟨bj, hbj, hs⟩ := Option.bind_eq_some_iff.1 hs
  have hj : j < h.length := (List.getElem?_eq_some_iff.1 hbj).1
  have hl := H.level (List.mem_of_getElem? hbj)
  have wr : ∀ c, Nested (h.set j (bj.write c)) := fun c => by
    refine H.set hbj rfl hl (fun s hs => .inl hs) fun i hi => ?_
    rcases List.mem_append.1 hi with hi | hi
    · exact .inl hi
    · rw [List.mem_singleton] at hi
      exact .inr ⟨_, hi, padded_inside hl c⟩
  cases op with
  | indent =>
    obtain rfl := Option.some.inj hs
    exact H.set hbj rfl (by show bj.base ≤ bj.level + 1; omega) (fun s hs => .inl hs) fun i hi => .inl hi
  | dedent =>
    dsimp only at hs
    split at hs
    · obtain rfl := Option.some.inj hs
      exact H.set hbj rfl (by show bj.base ≤ bj.level - 1; omega) (fun s hs => .inl hs) fun i hi => .inl hi
    · cases hs
  | write c => obtain rfl := Option.some.inj hs; exact wr c
  | defineVars t vs => obtain rfl := Option.some.inj hs; exact wr _
  | setEqual as bs =>
    obtain rfl := Option.some.inj hs
    rw [foldl_write]
    refine H.set hbj rfl hl (fun s hs => .inl hs) fun i hi => ?_
    rcases List.mem_append.1 hi with hi | hi
    · exact .inl hi
    · obtain ⟨p, _, rfl⟩ := List.mem_map.1 hi
      exact .inr ⟨_, rfl, padded_inside hl _⟩
  | newLine =>
    obtain rfl := Option.some.inj hs
    refine H.set hbj rfl hl (fun s hs => .inl hs) fun i hi => ?_
    rcases List.mem_append.1 hi with hi | hi
    · exact .inl hi
    · rw [List.mem_singleton] at hi
      exact .inr ⟨_, hi, fun l hl => .inl (by simpa [splitNL] using hl)⟩
  | incl c =>
    dsimp only at hs
    split at hs
    · obtain rfl := Option.some.inj hs; exact H
    · obtain rfl := Option.some.inj hs
      refine H.set hbj rfl hl (fun s hs => ?_) fun i hi => .inl hi
      rcases List.mem_append.1 hs with hs | hs
      · exact .inl hs
      · rw [List.mem_singleton] at hs
        subst hs
        exact .inr (padded_inside (Nat.le_refl _) c)
  | subBlock =>
    obtain rfl := Option.some.inj hs
    -- first the new block, to which nothing points, then the reference to it
    have hm : ∀ {x i}, x ∈ h → .sub i ∈ x.blocks → ∃ b', (h.set j { bj with blocks := bj.blocks ++ [.sub h.length] } ++ [new bj.level])[i]? = some b' ∧ x.base ≤ b'.base := fun {x i} hx hi => by
      obtain ⟨b', hb', hle⟩ := H.sub hx hi
      have hi' := (List.getElem?_eq_some_iff.1 hb').1
      rw [List.getElem?_append_left (by simpa using hi')]
      by_cases hji : j = i
      · subst hji
        obtain rfl : bj = b' := by rw [hbj] at hb'; exact Option.some.inj hb'
        exact ⟨_, List.getElem?_set_self hj, hle⟩
      · exact ⟨b', by rw [List.getElem?_set_ne hji]; exact hb', hle⟩
    have cases3 : ∀ {x}, x ∈ h.set j { bj with blocks := bj.blocks ++ [.sub h.length] } ++ [new bj.level] →
        x ∈ h ∨ x = { bj with blocks := bj.blocks ++ [.sub h.length] } ∨ x = new bj.level := fun {x} hx => by
      rcases List.mem_append.1 hx with hx | hx
      · rcases List.mem_or_eq_of_mem_set hx with hx | hx
        · exact .inl hx
        · exact .inr (.inl hx)
      · exact .inr (.inr (List.mem_singleton.1 hx))
    have hbm := List.mem_of_getElem? hbj
    refine ⟨fun {x} hx => ?_, fun {x s} hx hs => ?_, fun {x s} hx hs => ?_, fun {x i} hx hi => ?_⟩
    · rcases cases3 hx with hx | rfl | rfl
      · exact H.level hx
      · exact hl
      · exact Nat.le_refl _
    · rcases cases3 hx with hx | rfl | rfl
      · exact H.incl hx hs
      · exact H.incl (b := bj) hbm hs
      · cases hs
    · rcases cases3 hx with hx | rfl | rfl
      · exact H.text hx hs
      · rcases List.mem_append.1 hs with hs | hs
        · exact H.text (b := bj) hbm hs
        · rw [List.mem_singleton] at hs; cases hs
      · cases hs
    · rcases cases3 hx with hx | rfl | rfl
      · exact hm hx hi
      · rcases List.mem_append.1 hi with hi | hi
        · exact hm (x := bj) hbm hi
        · rw [List.mem_singleton] at hi
          cases hi
          exact ⟨new bj.level, by rw [List.getElem?_append_right (by simp)]; simp, hl⟩
      · cases hi

theorem Nested.run : ∀ (evs : List (Nat × Op)) (h h' : Heap), Nested h → Cb.run h evs = some h' → Nested h'
  | [], h, h', H, hr => by
    obtain rfl : h = h' := by simpa [Cb.run] using hr
    exact H
  | (j, op) :: evs, h, h', H, hr => by
    rw [Cb.run] at hr
    obtain ⟨h1, hs, hr⟩ := Option.bind_eq_some_iff.1 hr
    exact Nested.run evs h1 h' (H.step hs) hr

theorem Nested.start : Nested [new 0] := by
  refine ⟨fun {b} hb => ?_, fun {b s} hb hs => ?_, fun {b s} hb hs => ?_, fun {b j} hb hs => ?_⟩ <;> (rw [List.mem_singleton] at hb; subst hb)
  · exact Nat.le_refl _
  · cases hs
  · cases hs
  · cases hs

theorem Nested.str {h : Heap} (H : Nested h) : ∀ (n : Nat) {id : Nat} {b : Block}, h[id]? = some b → ∀ l ∈ splitNL (Cb.str n h id), Inside b.base l
  | 0, _, _, _, l, hl => .inl (by simpa [Cb.str, splitNL] using hl)
  | n + 1, id, b, hb, l, hl => by
    by_cases hne : l = []
    · exact .inl hne
    have hf : l ∈ full (splitNL (Cb.str (n + 1) h id)) := List.mem_filter.2 ⟨hl, by simpa using hne⟩
    rw [full_str hb] at hf
    have hm := List.mem_of_getElem? hb
    rcases List.mem_append.1 hf with hf | hf
    · obtain ⟨s, hs, hf⟩ := List.mem_flatMap.1 hf
      exact H.incl hm hs l (List.mem_filter.1 hf).1
    · obtain ⟨i, hi, hf⟩ := List.mem_flatMap.1 hf
      cases i with
      | text s => exact H.text hm hi l (List.mem_filter.1 hf).1
      | sub j =>
        obtain ⟨b', hb', hle⟩ := H.sub hm hi
        exact (Nested.str H n hb' l (List.mem_filter.1 hf).1).mono hle

/-- **C84** (nesting). Whatever is done to it and to the blocks inside it: all lines of a block - included, written, or of blocks inside - are empty or indented at least to the depth at which the block was created (the number of `indent`s
minus that of `dedent`s of the block that created it, plus the depth at which that one was created). -/
theorem C84_nesting {pre evs : List (Nat × Op)} {j : Nat} {h0 h1 h : Heap} {b : Block} (hp : run [new 0] pre = some h0) (hb : h0[j]? = some b) (hc : step h0 j .subBlock = some h1) (hr : run h1 evs = some h) :
    b.level + downs j pre = b.base + ups j pre ∧ ∀ n, ∀ l ∈ splitNL (str n h (1 + made pre)), Inside b.level l := by
  have H : Counts pre h0 := by simpa using Counts.run pre [] _ _ Counts.start hp
  refine ⟨(H.depth hb).1, ?_⟩
  have hN := Nested.run evs h1 h ((Nested.run pre _ _ Nested.start hp).step hc) hr
  unfold step at hc
  rw [hb] at hc
  obtain rfl := Option.some.inj hc
  obtain ⟨b', h1', h2', -, -⟩ := (run_grows evs _ _ hr).2 h0.length (new b.level) (by rw [List.getElem?_append_right (by simp)]; simp)
  rw [← H.len]
  intro n l hl
  have := hN.str n h1' l hl
  rwa [h2'] at this

/-! ### Printing twice -/

theorem touch_get (h : Heap) (id : Nat) : (touch h)[id]? = h[id]?.map fun b => if b.includes = [] then b else { b with includes := b.includes ++ [[]] } := by
  unfold touch; rw [List.getElem?_map]

/-- Apart from empty lines the text is the same when it is asked for again. -/
theorem C84_again {h : Heap} : ∀ (n id : Nat), full (splitNL (str n (touch h) id)) = full (splitNL (str n h id))
  | 0, _ => rfl
  | n + 1, id => by
    cases hb : h[id]? with
    | none =>
      have : (touch h)[id]? = none := by rw [touch_get, hb]; rfl
      rw [str, str, hb, this]
    | some b =>
      have ht := touch_get h id
      rw [hb] at ht
      rw [full_str hb, full_str ht]
      have eb : (if b.includes = [] then b else { b with includes := b.includes ++ [[]] }).blocks = b.blocks := by split <;> rfl
      have ei : (if b.includes = [] then b else { b with includes := b.includes ++ [[]] }).includes.flatMap (fun s => full (splitNL s)) = b.includes.flatMap fun s => full (splitNL s) := by
        split
        · rfl
        · rw [List.flatMap_append]; simp [splitNL, full]
      rw [eb, ei]
      congr 1
      refine flatMap_congr' fun i _ => ?_
      cases i with
      | text s => rfl
      | sub j => exact C84_again n j

/-- But not exactly: `str(code_block)` changes the block, and the next `str(code_block)` has one more empty line after the included lines. -/
theorem C84_again_violated : ∃ h, run [new 0] [(0, .incl "#include <a.h>".toList), (0, .write "x;".toList)] = some h ∧
    str 1 h 0 = "#include <a.h>\n\nx;\n".toList ∧ str 1 (touch h) 0 = "#include <a.h>\n\n\nx;\n".toList :=
  ⟨_, rfl, by decide +kernel, by decide +kernel⟩

/-! ### Examples -/

/-- A function with a loop: the block for the declarations is created first and filled at the end. -/
def exampleCalls : List (Nat × Op) :=
  [(0, .write "void f(){".toList), (0, .indent), (0, .subBlock), (0, .write "for(;;){".toList), (0, .indent), (0, .subBlock), (2, .setEqual ["a".toList, "b".toList] ["c".toList, "d".toList]), (1, .defineVars "int".toList ["a".toList, "b".toList]),
   (0, .dedent), (0, .write "}\nreturn;".toList), (2, .incl "//i".toList), (2, .incl "//i".toList), (1, .indent), (1, .write "y;".toList), (0, .dedent), (0, .newLine), (0, .write "}".toList), (0, .incl "#include <h>".toList)]

example : generate exampleCalls = some "#include <h>\n\nvoid f(){\n  int a, b;\n    y;\n\n  for(;;){\n    //i\n\n    a = c;\n    b = d;\n\n  }\n  return;\n\n}\n".toList := by decide +kernel

example : full (text exampleCalls 0 0 1) = ["#include <h>", "void f(){", "  int a, b;", "    y;", "  for(;;){", "    //i", "    a = c;", "    b = d;", "  }", "  return;", "}"].map String.toList := by decide +kernel

example : generate [(0, .indent), (0, .subBlock), (1, .dedent)] = none := by decide +kernel

end Cb
end Repro

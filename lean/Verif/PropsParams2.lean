import Verif.ParamsLemmas
/-!
# C39: the parameters file describes exactly the targets that were added
-/
namespace Repro

/-- Specification: `d` is a dictionary of sets with exactly the keys `K` and the memberships `E`. -/
structure SetsAre (d : List (String × List String)) (K : String → Prop) (E : String → String → Prop) : Prop where
  nodup : (d.map (·.1)).Nodup
  keys : ∀ k, (dget d k).isSome ↔ K k
  mem : ∀ k a, (∃ s, dget d k = some s ∧ a ∈ s) ↔ E k a

theorem SetsAre.congr {d : List (String × List String)} {K K' : String → Prop} {E E' : String → String → Prop} (h : SetsAre d K E)
    (hK : ∀ k, K k ↔ K' k) (hE : ∀ k a, E k a ↔ E' k a) : SetsAre d K' E' :=
  ⟨h.nodup, fun k => (h.keys k).trans (hK k), fun k a => (h.mem k a).trans (hE k a)⟩

theorem SetsAre.ensure {d : List (String × List String)} {K : String → Prop} {E : String → String → Prop} (h : SetsAre d K E) (k : String) :
    SetsAre (Repro.ensure d k) (fun x => K x ∨ x = k) E := by
  unfold Repro.ensure
  split
  · rename_i hk
    refine h.congr (fun x => ⟨Or.inl, ?_⟩) (fun _ _ => Iff.rfl)
    rintro (hx | rfl)
    · exact hx
    · exact (h.keys x).1 hk
  · rename_i hk
    have hnone : dget d k = none := by simpa using hk
    refine ⟨nodup_dset h.nodup _ _, fun x => ?_, fun x a => ?_⟩
    · rw [dget_dset]
      by_cases hx : k = x
      · simp [hx]
      · rw [if_neg hx, h.keys]; simp [Ne.symm hx]
    · rw [dget_dset, ← h.mem]
      by_cases hx : k = x
      · subst hx; simp [hnone]
      · rw [if_neg hx]

theorem SetsAre.addTo {d : List (String × List String)} {K : String → Prop} {E : String → String → Prop} (h : SetsAre d K E) (k a : String) :
    SetsAre (Repro.addTo d k a) (fun x => K x ∨ x = k) (fun x b => E x b ∨ (x = k ∧ b = a)) := by
  unfold Repro.addTo
  refine ⟨nodup_dset h.nodup _ _, fun x => ?_, fun x b => ?_⟩
  · rw [dget_dset]
    by_cases hx : k = x
    · simp [hx]
    · rw [if_neg hx, h.keys]; simp [Ne.symm hx]
  · rw [dget_dset, ← h.mem]
    by_cases hx : k = x
    · subst hx
      rw [if_pos rfl]
      constructor
      · rintro ⟨s, hs, hb⟩
        rw [Option.some.injEq] at hs
        rw [← hs, mem_sadd] at hb
        rcases hb with hb | rfl
        · left
          cases hd : dget d k with
          | none => rw [hd] at hb; simp at hb
          | some t => rw [hd] at hb; exact ⟨t, rfl, hb⟩
        · exact Or.inr ⟨rfl, rfl⟩
      · rintro (⟨s, hs, hb⟩ | ⟨-, rfl⟩)
        · exact ⟨_, rfl, mem_sadd.2 (Or.inl (by rw [hs]; exact hb))⟩
        · exact ⟨_, rfl, mem_sadd.2 (Or.inr rfl)⟩
    · rw [if_neg hx]
      constructor
      · exact Or.inl
      · rintro (h' | ⟨h', -⟩)
        · exact h'
        · exact absurd h'.symm hx

theorem SetsAre.foldl {ι : Type} {step : List (String × List String) → ι → List (String × List String)}
    {k : ι → String → Prop} {e : ι → String → String → Prop}
    (hstep : ∀ (d : List (String × List String)) (K : String → Prop) (E : String → String → Prop) (i : ι), SetsAre d K E →
      SetsAre (step d i) (fun x => K x ∨ k i x) (fun x b => E x b ∨ e i x b))
    (l : List ι) {d : List (String × List String)} {K : String → Prop} {E : String → String → Prop} (h : SetsAre d K E) :
    SetsAre (l.foldl step d) (fun x => K x ∨ ∃ i ∈ l, k i x) (fun x b => E x b ∨ ∃ i ∈ l, e i x b) := by
  induction l generalizing d K E with
  | nil => exact h.congr (fun x => by simp) (fun x b => by simp)
  | cons i l ih =>
    rw [List.foldl_cons]
    exact (ih (hstep d K E i h)).congr (fun x => by simp [or_assoc]) (fun x b => by simp [or_assoc])

theorem SetsAre.canon {d : List (String × List String)} {K : String → Prop} {E : String → String → Prop} (h : SetsAre d K E) :
    SetsAre (canonSets d) K E := by
  refine ⟨(keys_canonSets d).nodup_iff.2 h.nodup, fun k => ?_, fun k a => ?_⟩
  · rw [dget_canonSets h.nodup, ← h.keys]; simp
  · rw [dget_canonSets h.nodup, ← h.mem]
    constructor
    · rintro ⟨s, hs, ha⟩
      rw [Option.map_eq_some_iff] at hs
      obtain ⟨t, ht, rfl⟩ := hs
      refine ⟨t, ht, ?_⟩
      rw [foldl_sadd] at ha
      rcases ha with ha | ha
      · simp at ha
      · exact (sortKey_perm id t).mem_iff.1 ha
    · rintro ⟨t, ht, ha⟩
      refine ⟨_, by rw [ht]; rfl, ?_⟩
      rw [foldl_sadd]
      exact Or.inr ((sortKey_perm id t).mem_iff.2 ha)

/-- Specification: the parameter space holds exactly what the targets in `ts` (with their files) declare. -/
structure Describes (s : Space) (ts : List (String × Target)) : Prop where
  fwd : SetsAre s.fwd (fun f => ∃ t ∈ ts, t.1 = f) (fun f a => ∃ t ∈ ts, t.1 = f ∧ a ∈ t.2.arguments)
  bwd : SetsAre s.bwd (fun a => ∃ t ∈ ts, a ∈ t.2.arguments) (fun a f => ∃ t ∈ ts, t.1 = f ∧ a ∈ t.2.arguments)
  fmet : SetsAre s.fmet (fun m => ∃ t ∈ ts, ∃ e ∈ t.2.metrics, m ∈ e.2) (fun m a => ∃ t ∈ ts, ∃ e ∈ t.2.metrics, e.1 = a ∧ m ∈ e.2)
  bmet : SetsAre s.bmet (fun a => ∃ t ∈ ts, ∃ e ∈ t.2.metrics, e.1 = a) (fun a m => ∃ t ∈ ts, ∃ e ∈ t.2.metrics, e.1 = a ∧ m ∈ e.2)
  params : ∀ n p, dget s.params n = some p ↔ ∃ t ∈ ts, p ∈ t.2.parameters ∧ p.name = n
  nodup : (s.params.map (·.1)).Nodup

/-- The parameter names of a list of targets. -/
def parNames (ts : List (String × Target)) : List String := ts.flatMap (fun t => t.2.parameters.map (·.name))

theorem Describes.empty : Describes Space.empty [] :=
  ⟨⟨List.nodup_nil, by simp [Space.empty], by simp [Space.empty]⟩, ⟨List.nodup_nil, by simp [Space.empty], by simp [Space.empty]⟩,
    ⟨List.nodup_nil, by simp [Space.empty], by simp [Space.empty]⟩, ⟨List.nodup_nil, by simp [Space.empty], by simp [Space.empty]⟩,
    by simp [Space.empty], List.nodup_nil⟩

/-- Declaring parameters one after the other. -/
def addParams (ps : List (String × Param)) (l : List Param) : Option (List (String × Param)) :=
  l.foldlM (fun ps p => if (dget ps p.name).isSome then none else some (dset ps p.name p)) ps

theorem addParams_spec (l : List Param) {ps : List (String × Param)} (hn : (ps.map (·.1)).Nodup) :
    if (l.map (·.name)).Nodup ∧ ∀ p ∈ l, p.name ∉ ps.map (·.1) then
      ∃ ps', addParams ps l = some ps' ∧ (ps'.map (·.1)).Nodup ∧
        ∀ n p, dget ps' n = some p ↔ dget ps n = some p ∨ (p ∈ l ∧ p.name = n)
    else addParams ps l = none := by
  induction l generalizing ps with
  | nil => simpa [addParams] using hn
  | cons q l ih =>
    unfold addParams
    rw [List.foldlM_cons]
    by_cases hq : (dget ps q.name).isSome
    · rw [if_pos hq, if_neg]
      · rfl
      · rintro ⟨-, h⟩
        exact h q List.mem_cons_self (dget_isSome.1 hq)
    · rw [if_neg hq]
      have hq' : q.name ∉ ps.map (·.1) := fun h => hq (dget_isSome.2 h)
      have hqn : dget ps q.name = none := by simpa using hq
      have := ih (nodup_dset hn q.name q)
      show if _ then (∃ ps', addParams (dset ps q.name q) l = some ps' ∧ _) else addParams (dset ps q.name q) l = none
      by_cases hc : (l.map (·.name)).Nodup ∧ ∀ p ∈ l, p.name ∉ (dset ps q.name q).map (·.1)
      · rw [if_pos hc] at this
        obtain ⟨ps', h1, h2, h3⟩ := this
        rw [keys_dset, if_neg hq'] at hc
        have hnot : q.name ∉ l.map (·.name) := by
          intro hm
          obtain ⟨p, hp, he⟩ := List.mem_map.1 hm
          exact hc.2 p hp (List.mem_append_right _ (by simp [he]))
        rw [if_pos]
        · refine ⟨ps', h1, h2, fun n p => ?_⟩
          rw [h3, dget_dset, List.mem_cons]
          by_cases hnq : q.name = n
          · subst hnq
            rw [if_pos rfl, hqn]
            constructor
            · rintro (h | ⟨h, e⟩)
              · rw [Option.some.injEq] at h; subst h; exact Or.inr ⟨Or.inl rfl, rfl⟩
              · exact Or.inr ⟨Or.inr h, e⟩
            · rintro (h | ⟨rfl | h, e⟩)
              · exact absurd h (by simp)
              · exact Or.inl rfl
              · exact Or.inr ⟨h, e⟩
          · rw [if_neg hnq]
            constructor
            · rintro (h | ⟨h, e⟩)
              · exact Or.inl h
              · exact Or.inr ⟨Or.inr h, e⟩
            · rintro (h | ⟨rfl | h, e⟩)
              · exact Or.inl h
              · exact absurd e hnq
              · exact Or.inr ⟨h, e⟩
        · refine ⟨by rw [List.map_cons, List.nodup_cons]; exact ⟨hnot, hc.1⟩, fun p hp => ?_⟩
          rcases List.mem_cons.1 hp with rfl | hp
          · exact hq'
          · exact fun h => hc.2 p hp (List.mem_append_left _ h)
      · rw [if_neg hc] at this
        rw [if_neg]
        · exact this
        · rintro ⟨h1, h2⟩
          rw [List.map_cons, List.nodup_cons] at h1
          apply hc
          refine ⟨h1.2, fun p hp => ?_⟩
          rw [keys_dset, if_neg hq', List.mem_append, not_or]
          refine ⟨h2 p (List.mem_cons_of_mem _ hp), ?_⟩
          rw [List.mem_singleton]
          exact fun e => h1.1 (List.mem_map.2 ⟨p, hp, e⟩)

variable {rnd : Int → Int → Option Int} {intOf : String → Option Int}

theorem Describes.mem_keys {s : Space} {ts : List (String × Target)} (h : Describes s ts) (n : String) :
    n ∈ s.params.map (·.1) ↔ n ∈ parNames ts := by
  rw [← dget_isSome, Option.isSome_iff_exists]
  unfold parNames
  rw [List.mem_flatMap]
  constructor
  · rintro ⟨p, hp⟩
    obtain ⟨t, ht, hpt, e⟩ := (h.params n p).1 hp
    exact ⟨t, ht, List.mem_map.2 ⟨p, hpt, e⟩⟩
  · rintro ⟨t, ht, hm⟩
    obtain ⟨p, hp, e⟩ := List.mem_map.1 hm
    exact ⟨p, (h.params n p).2 ⟨t, ht, hp, e⟩⟩

/-- Adding a target: it is refused exactly when a parameter is declared twice; otherwise the space describes one more target. -/
theorem Describes.addTarget {s : Space} {ts : List (String × Target)} (h : Describes s ts) (f : String) (t : Target) :
    if (t.parameters.map (·.name)).Nodup ∧ ∀ p ∈ t.parameters, p.name ∉ parNames ts then
      ∃ s', s.addTarget f t = some s' ∧ Describes s' (ts ++ [(f, t)])
    else s.addTarget f t = none := by
  have hp := addParams_spec t.parameters h.nodup
  have e : s.addTarget f t = (addParams s.params t.parameters).bind (fun params => some
      ⟨t.arguments.foldl (fun d a => addTo d f a) (ensure s.fwd f), t.arguments.foldl (fun d a => addTo (ensure d a) a f) s.bwd,
        t.metrics.foldl (fun d e => e.2.foldl (fun d m => addTo (ensure d m) m e.1) d) s.fmet,
        t.metrics.foldl (fun d e => e.2.foldl (fun d m => addTo d e.1 m) (ensure d e.1)) s.bmet, params⟩) := rfl
  simp only [h.mem_keys] at hp
  by_cases hc : (t.parameters.map (·.name)).Nodup ∧ ∀ p ∈ t.parameters, p.name ∉ parNames ts
  · rw [if_pos hc] at hp ⊢
    obtain ⟨ps', h1, h2, h3⟩ := hp
    refine ⟨_, by rw [e, h1]; rfl, ?_⟩
    refine ⟨?_, ?_, ?_, ?_, ?_, h2⟩
    · refine (SetsAre.foldl (k := fun _ x => x = f) (e := fun a x b => x = f ∧ b = a)
        (fun d K E a hd => hd.addTo f a) t.arguments (h.fwd.ensure f)).congr (fun x => ?_) (fun x b => ?_)
      · simp only [List.mem_append, List.mem_singleton]
        constructor
        · rintro ((⟨t', ht', e'⟩ | rfl) | ⟨a, -, rfl⟩)
          · exact ⟨t', Or.inl ht', e'⟩
          · exact ⟨_, Or.inr rfl, rfl⟩
          · exact ⟨_, Or.inr rfl, rfl⟩
        · rintro ⟨t', ht' | rfl, e'⟩
          · exact Or.inl (Or.inl ⟨t', ht', e'⟩)
          · exact Or.inl (Or.inr e'.symm)
      · simp only [List.mem_append, List.mem_singleton]
        constructor
        · rintro (⟨t', ht', e'⟩ | ⟨a, ha, rfl, rfl⟩)
          · exact ⟨t', Or.inl ht', e'⟩
          · exact ⟨_, Or.inr rfl, rfl, ha⟩
        · rintro ⟨t', ht' | rfl, e'⟩
          · exact Or.inl ⟨t', ht', e'⟩
          · exact Or.inr ⟨b, e'.2, e'.1.symm, rfl⟩
    · refine (SetsAre.foldl (k := fun a x => x = a) (e := fun a x b => x = a ∧ b = f)
        (fun d K E a hd => ((hd.ensure a).addTo a f).congr (fun x => by simp) (fun x b => Iff.rfl)) t.arguments h.bwd).congr
          (fun x => ?_) (fun x b => ?_)
      · simp only [List.mem_append, List.mem_singleton]
        constructor
        · rintro (⟨t', ht', e'⟩ | ⟨a, ha, rfl⟩)
          · exact ⟨t', Or.inl ht', e'⟩
          · exact ⟨_, Or.inr rfl, ha⟩
        · rintro ⟨t', ht' | rfl, e'⟩
          · exact Or.inl ⟨t', ht', e'⟩
          · exact Or.inr ⟨x, e', rfl⟩
      · simp only [List.mem_append, List.mem_singleton]
        constructor
        · rintro (⟨t', ht', e'⟩ | ⟨a, ha, rfl, rfl⟩)
          · exact ⟨t', Or.inl ht', e'⟩
          · exact ⟨_, Or.inr rfl, rfl, ha⟩
        · rintro ⟨t', ht' | rfl, e'⟩
          · exact Or.inl ⟨t', ht', e'⟩
          · exact Or.inr ⟨x, e'.2, rfl, e'.1.symm⟩
    · refine (SetsAre.foldl (k := fun (e : String × List String) x => x ∈ e.2) (e := fun e x b => x ∈ e.2 ∧ b = e.1)
        (fun d K E e hd => (SetsAre.foldl (k := fun m x => x = m) (e := fun m x b => x = m ∧ b = e.1)
          (fun d K E m hd => ((hd.ensure m).addTo m e.1).congr (fun x => by simp) (fun x b => Iff.rfl)) e.2 hd).congr
            (fun x => by simp) (fun x b => ?_)) t.metrics h.fmet).congr
          (fun x => ?_) (fun x b => ?_)
      · constructor
        · rintro (h' | ⟨m, hm, rfl, rfl⟩)
          · exact Or.inl h'
          · exact Or.inr ⟨hm, rfl⟩
        · rintro (h' | ⟨hm, rfl⟩)
          · exact Or.inl h'
          · exact Or.inr ⟨x, hm, rfl, rfl⟩
      · simp only [List.mem_append, List.mem_singleton]
        constructor
        · rintro (⟨t', ht', e'⟩ | ⟨a, ha, hx⟩)
          · exact ⟨t', Or.inl ht', e'⟩
          · exact ⟨_, Or.inr rfl, a, ha, hx⟩
        · rintro ⟨t', ht' | rfl, e'⟩
          · exact Or.inl ⟨t', ht', e'⟩
          · exact Or.inr e'
      · simp only [List.mem_append, List.mem_singleton]
        constructor
        · rintro (⟨t', ht', e'⟩ | ⟨a, ha, hx, rfl⟩)
          · exact ⟨t', Or.inl ht', e'⟩
          · exact ⟨_, Or.inr rfl, a, ha, rfl, hx⟩
        · rintro ⟨t', ht' | rfl, e'⟩
          · exact Or.inl ⟨t', ht', e'⟩
          · obtain ⟨a, ha, rfl, hx⟩ := e'
            exact Or.inr ⟨a, ha, hx, rfl⟩
    · refine (SetsAre.foldl (k := fun (e : String × List String) x => x = e.1) (e := fun e x b => x = e.1 ∧ b ∈ e.2)
        (fun d K E e hd => (SetsAre.foldl (k := fun _ x => x = e.1) (e := fun m x b => x = e.1 ∧ b = m)
          (fun d K E m hd => hd.addTo e.1 m) e.2 (hd.ensure e.1)).congr
            (fun x => ?_) (fun x b => ?_)) t.metrics h.bmet).congr
          (fun x => ?_) (fun x b => ?_)
      · constructor
        · rintro (h' | ⟨m, -, hm⟩)
          · exact h'
          · exact Or.inr hm
        · exact Or.inl
      · constructor
        · rintro (h' | ⟨m, hm, rfl, rfl⟩)
          · exact Or.inl h'
          · exact Or.inr ⟨rfl, hm⟩
        · rintro (h' | ⟨rfl, hm⟩)
          · exact Or.inl h'
          · exact Or.inr ⟨b, hm, rfl, rfl⟩
      · simp only [List.mem_append, List.mem_singleton]
        constructor
        · rintro (⟨t', ht', e'⟩ | ⟨a, ha, hx⟩)
          · exact ⟨t', Or.inl ht', e'⟩
          · exact ⟨_, Or.inr rfl, a, ha, hx.symm⟩
        · rintro ⟨t', ht' | rfl, e'⟩
          · exact Or.inl ⟨t', ht', e'⟩
          · obtain ⟨a, ha, hx⟩ := e'
            exact Or.inr ⟨a, ha, hx.symm⟩
      · simp only [List.mem_append, List.mem_singleton]
        constructor
        · rintro (⟨t', ht', e'⟩ | ⟨a, ha, hx, hb⟩)
          · exact ⟨t', Or.inl ht', e'⟩
          · exact ⟨_, Or.inr rfl, a, ha, hx.symm, hb⟩
        · rintro ⟨t', ht' | rfl, e'⟩
          · exact Or.inl ⟨t', ht', e'⟩
          · obtain ⟨a, ha, hx, hb⟩ := e'
            exact Or.inr ⟨a, ha, hx.symm, hb⟩
    · intro n p
      rw [h3, h.params]
      simp only [List.mem_append, List.mem_singleton]
      constructor
      · rintro (⟨t', ht', e'⟩ | hx)
        · exact ⟨t', Or.inl ht', e'⟩
        · exact ⟨_, Or.inr rfl, hx⟩
      · rintro ⟨t', ht' | rfl, e'⟩
        · exact Or.inl ⟨t', ht', e'⟩
        · exact Or.inr e'
  · rw [if_neg hc] at hp ⊢
    rw [e, hp]; rfl

/-- Writing the space to a file and reading it back keeps the description. -/
theorem Describes.canon {s : Space} {ts : List (String × Target)} (h : Describes s ts) : Describes s.canon ts :=
  ⟨h.fwd.canon, h.bwd.canon, h.fmet.canon, h.bmet.canon,
    fun n p => by
      show dget (sortKey _ s.params) n = _ ↔ _
      rw [dget_perm (sortKey_perm _ s.params) (((sortKey_perm _ s.params).map _).nodup_iff.2 h.nodup)]; exact h.params n p,
    ((sortKey_perm _ s.params).map _).nodup_iff.2 h.nodup⟩

theorem Describes.made {s : Space} {ts : List (String × Target)} (h : Describes s ts)
    (hm : ∀ t ∈ ts, ∀ p ∈ t.2.parameters, p.Made rnd) : ∀ e ∈ s.params, e.2.Made rnd := by
  intro e he
  obtain ⟨t, ht, hp, -⟩ := (h.params e.1 e.2).1 ((dget_mem h.nodup).2 he)
  exact hm t ht e.2 hp

/-- **C39** (round trip). A parameter space that was written to a file and read again is the same space: the same files,
arguments, metrics and dependencies, and exactly the same parameters. -/
theorem C39_roundtrip {s : Space} {ts : List (String × Target)} (h : Describes s ts)
    (hm : ∀ t ∈ ts, ∀ p ∈ t.2.parameters, p.Made rnd) :
    ∃ s', Space.decode rnd intOf s.encode.reload = some s' ∧ Describes s' ts :=
  ⟨_, space_roundtrip (h.made hm), h.canon⟩

/-- The runs of the generator that collect the parameters of all files, from a missing parameters file. -/
def collect (rnd : Int → Int → Option Int) (intOf : String → Option Int) (ts : List (String × Target)) : Option (Option Json) :=
  ts.foldlM (fun j t => (generateParams rnd intOf j t.1 t.2).map some) none

/-- **C39**. Collecting the parameters of any sequence of targets, with the file written and read again between any two
of them, fails exactly if a parameter name is declared twice; otherwise the final file describes exactly the targets: every file
with its arguments, every argument with its files, every metric with its arguments and vice versa, and every parameter. -/
theorem C39_collect {ts : List (String × Target)} (hne : ts ≠ []) (hm : ∀ t ∈ ts, ∀ p ∈ t.2.parameters, p.Made rnd) :
    if (parNames ts).Nodup then
      ∃ j s, collect rnd intOf ts = some (some j) ∧ Space.decode rnd intOf j = some s ∧ Describes s ts
    else collect rnd intOf ts = none := by
  have gen : ∀ (us ts : List (String × Target)) (j : Option Json) (s : Space), Describes s ts → (parNames ts).Nodup →
      (∀ t ∈ ts ++ us, ∀ p ∈ t.2.parameters, p.Made rnd) → us ≠ [] →
      (match j with | some j => Space.decode rnd intOf j = some s | none => s = Space.empty) →
      if (parNames (ts ++ us)).Nodup then
        ∃ j' s', us.foldlM (fun j t => (generateParams rnd intOf j t.1 t.2).map some) j = some (some j') ∧
          Space.decode rnd intOf j' = some s' ∧ Describes s' (ts ++ us)
      else us.foldlM (fun j t => (generateParams rnd intOf j t.1 t.2).map some) j = none := by
    intro us
    induction us with
    | nil => intro _ _ _ _ _ _ h; exact absurd rfl h
    | cons t us ih =>
      intro ts j s hd hnd hm _ hj
      rw [List.foldlM_cons]
      have hgen : generateParams rnd intOf j t.1 t.2 = (s.addTarget t.1 t.2).bind (fun s' => some s'.encode.reload) := by
        unfold generateParams
        cases j with
        | none => dsimp only at hj; subst hj; rfl
        | some j => dsimp only at hj ⊢; rw [hj]; rfl
      have hadd := hd.addTarget t.1 t.2
      have hsplit : parNames (ts ++ t :: us) = parNames ts ++ (t.2.parameters.map (·.name) ++ parNames us) := by
        unfold parNames; simp
      by_cases hc : (t.2.parameters.map (·.name)).Nodup ∧ ∀ p ∈ t.2.parameters, p.name ∉ parNames ts
      · rw [if_pos hc] at hadd
        obtain ⟨s', h1, h2⟩ := hadd
        have hnd' : (parNames (ts ++ [t])).Nodup := by
          have : parNames (ts ++ [t]) = parNames ts ++ t.2.parameters.map (·.name) := by unfold parNames; simp
          rw [this, List.nodup_append]
          refine ⟨hnd, hc.1, ?_⟩
          intro a ha b hb e
          subst e
          obtain ⟨p, hp, e'⟩ := List.mem_map.1 hb
          exact hc.2 p hp (e' ▸ ha)
        have hm' : ∀ t' ∈ ts ++ [t], ∀ p ∈ t'.2.parameters, p.Made rnd := by
          intro t' ht'
          apply hm
          rw [List.mem_append] at ht' ⊢
          rcases ht' with h | h
          · exact Or.inl h
          · rw [List.mem_singleton] at h; subst h; exact Or.inr List.mem_cons_self
        obtain ⟨s'', h3, h4⟩ := C39_roundtrip (intOf := intOf) h2 hm'
        rw [hgen, h1]
        show if _ then (∃ j' s₁, us.foldlM _ (some s'.encode.reload) = _ ∧ _) else us.foldlM _ (some s'.encode.reload) = _
        by_cases hus : us = []
        · subst hus
          rw [if_pos hnd']
          exact ⟨_, _, rfl, h3, h4⟩
        · have := ih (ts ++ [t]) (some s'.encode.reload) s'' h4 hnd' (by rw [List.append_assoc]; exact hm) hus h3
          rw [List.append_assoc] at this
          exact this
      · rw [if_neg hc] at hadd
        rw [hgen, hadd, if_neg]
        · rfl
        · rw [hsplit, List.nodup_append, List.nodup_append]
          rintro ⟨-, ⟨h1, -, -⟩, h2⟩
          exact hc ⟨h1, fun p hp hn => h2 _ hn _ (List.mem_append_left _ (List.mem_map.2 ⟨p, hp, rfl⟩)) rfl⟩
  exact gen ts [] none Space.empty Describes.empty List.nodup_nil hm hne rfl

/-- **C39** (consistency). In a collected parameter space the forward and the backward dictionaries agree. -/
theorem C39_consistent {s : Space} {ts : List (String × Target)} (h : Describes s ts) (x y : String) :
    ((∃ l, dget s.fwd x = some l ∧ y ∈ l) ↔ ∃ l, dget s.bwd y = some l ∧ x ∈ l) ∧
    ((∃ l, dget s.fmet x = some l ∧ y ∈ l) ↔ ∃ l, dget s.bmet y = some l ∧ x ∈ l) := by
  rw [h.fwd.mem, h.bwd.mem, h.fmet.mem, h.bmet.mem]
  exact ⟨Iff.rfl, Iff.rfl⟩

/-! ### Arguments files -/

theorem setArguments_spec {s : Space} {args : List (String × PyVal)} (l : List String) :
    ∀ (d d' : List (String × PyVal)), l.foldlM (fun d a => (s.getValue rnd a args).map (dset d a)) d = some d' →
      (∀ a, a ∈ l → dget d' a = s.getValue rnd a args ∧ (s.getValue rnd a args).isSome) ∧ ∀ a, a ∉ l → dget d' a = dget d a := by
  induction l with
  | nil => intro d d' h; simp at h; subst h; simp
  | cons b l ih =>
    intro d d' h
    rw [List.foldlM_cons] at h
    cases hv : s.getValue rnd b args with
    | none => rw [hv] at h; simp at h
    | some v =>
      rw [hv] at h
      obtain ⟨h1, h2⟩ := ih _ _ h
      constructor
      · intro a ha
        by_cases hal : a ∈ l
        · exact h1 a hal
        · rcases List.mem_cons.1 ha with rfl | ha
          · rw [h2 a hal, dget_dset, if_pos rfl, hv]; exact ⟨rfl, rfl⟩
          · exact absurd ha hal
      · intro a ha
        rw [List.mem_cons, not_or] at ha
        rw [h2 a ha.2, dget_dset, if_neg (Ne.symm ha.1)]

theorem setArguments_some {s : Space} {args : List (String × PyVal)} (l : List String) (h : ∀ a ∈ l, (s.getValue rnd a args).isSome) :
    ∀ d, ∃ d', l.foldlM (fun d a => (s.getValue rnd a args).map (dset d a)) d = some d' := by
  induction l with
  | nil => intro d; exact ⟨d, rfl⟩
  | cons b l ih =>
    intro d
    obtain ⟨v, hv⟩ := Option.isSome_iff_exists.1 (h b List.mem_cons_self)
    obtain ⟨d', hd'⟩ := ih (fun a ha => h a (List.mem_cons_of_mem _ ha)) (dset d b v)
    exact ⟨d', by rw [List.foldlM_cons, hv]; exact hd'⟩

/-- **C38** (generated code). Whatever is in the arguments file: if the generator accepts it, every argument used by a target is the
parsed value of a declared parameter of this name, and it is legal. -/
theorem C38_arguments {s : Space} {ts : List (String × Target)} (h : Describes s ts)
    (hm : ∀ t ∈ ts, ∀ p ∈ t.2.parameters, p.Made rnd) (ho : ∀ t ∈ ts, ∀ p ∈ t.2.parameters, Ordered p.flavor)
    {t : Target} {args d : List (String × PyVal)} (hd : t.setArguments rnd args s = some d) {a : String} (ha : a ∈ t.arguments) :
    ∃ p v, (∃ t ∈ ts, p ∈ t.2.parameters) ∧ p.name = a ∧ dget d a = some v ∧ Legal p.flavor v := by
  obtain ⟨h1, h2⟩ := (setArguments_spec t.arguments [] d hd).1 a ha
  obtain ⟨w, hw⟩ := Option.isSome_iff_exists.1 h2
  have hw' := hw
  unfold Space.getValue at hw
  simp only [Option.bind_eq_bind, Option.bind_eq_some_iff] at hw
  obtain ⟨v, -, p, hp, hpv⟩ := hw
  obtain ⟨t', ht', hpt, e⟩ := (h.params a p).1 hp
  exact ⟨p, w, ⟨t', ht', hpt⟩, e, by rw [h1, hw'], C38_range (Made_iff.1 (hm t' ht' p hpt)).2.1 (ho t' ht' p hpt) hpv⟩

/-- **C39** (defaults). The default arguments file made from a collected parameters file is accepted for every target whose arguments
are declared, and gives every argument the declared default. -/
theorem C39_defaults {j : Json} {s : Space} {ts : List (String × Target)} (hs : Space.decode rnd intOf j = some s) (h : Describes s ts)
    (hm : ∀ t ∈ ts, ∀ p ∈ t.2.parameters, p.Made rnd) {t : Target} (ht : ∀ a ∈ t.arguments, a ∈ parNames ts) :
    ∃ f args d, defaultArgs rnd intOf j = some f ∧ loadArgs intOf f = some args ∧ t.setArguments rnd args s = some d ∧
      ∀ a ∈ t.arguments, ∃ u ∈ ts, ∃ p ∈ u.2.parameters, p.name = a ∧ dget d a = some p.default := by
  have hname : ∀ e ∈ s.params, e.2.name = e.1 := by
    intro e he
    obtain ⟨_, _, _, e'⟩ := (h.params e.1 e.2).1 ((dget_mem h.nodup).2 he)
    exact e'
  have hdef : s.defaults = s.params.map (fun e => (e.1, e.2.default)) := by
    unfold Space.defaults
    have e1 : s.params.map (fun e => (e.2.name, e.2.default)) = s.params.map (fun e => (e.1, e.2.default)) :=
      List.map_congr_left (fun e he => by rw [hname e he])
    rw [e1]
    apply dictOf_nodup
    rw [List.map_map]
    exact h.nodup
  have hload : loadArgs intOf (Json.obj (s.defaults.map (fun e => (e.1, e.2.encode)))).reload =
      some ((sortKey (·.1) s.params).map (fun e => (e.1, e.2.default))) := by
    rw [hdef, reload_obj, List.map_map, List.map_map,
      sortKey_map (key := fun e : String × Param => e.1) (key' := fun e : String × Json => e.1) _ (fun _ => rfl)]
    unfold loadArgs
    rw [Json.obj?]
    show some (List.map _ (List.map _ _)) = _
    rw [List.map_map]
    congr 1
    apply List.map_congr_left
    intro e he
    have he' := (sortKey_perm _ s.params).mem_iff.1 he
    obtain ⟨-, -, v, hv⟩ := Made_iff.1 (h.made hm e he')
    show (e.1, (e.2.default.encode.reload).toVal intOf) = _
    rw [val_roundtrip (parse_kind hv)]
  have hget : ∀ a ∈ t.arguments, ∃ u ∈ ts, ∃ p ∈ u.2.parameters, p.name = a ∧
      s.getValue rnd a ((sortKey (·.1) s.params).map (fun e => (e.1, e.2.default))) = some p.default := by
    intro a ha
    obtain ⟨p, hp⟩ := Option.isSome_iff_exists.1 (dget_isSome.2 ((h.mem_keys a).2 (ht a ha)))
    obtain ⟨u, hu, hpu, e⟩ := (h.params a p).1 hp
    refine ⟨u, hu, p, hpu, e, ?_⟩
    obtain ⟨-, hv, v, hpv⟩ := Made_iff.1 (hm u hu p hpu)
    have hsort := dget_perm (sortKey_perm (fun e : String × Param => e.1) s.params) (((sortKey_perm _ s.params).map _).nodup_iff.2 h.nodup) a
    unfold Space.getValue
    rw [dget_map (fun _ (p : Param) => p.default) (fun _ => rfl), hsort, hp]
    show p.flavor.parse rnd p.default = _
    exact parse_idem hv hpv
  obtain ⟨d, hd⟩ := setArguments_some (rnd := rnd) (s := s) t.arguments (fun a ha => by
    obtain ⟨_, _, p, _, _, hg⟩ := hget a ha
    rw [hg]; rfl) []
  refine ⟨_, _, d, by unfold defaultArgs; rw [hs]; rfl, hload, hd, fun a ha => ?_⟩
  obtain ⟨u, hu, p, hp, e, hg⟩ := hget a ha
  exact ⟨u, hu, p, hp, e, by rw [((setArguments_spec t.arguments [] d hd).1 a ha).1, hg]⟩

end Repro

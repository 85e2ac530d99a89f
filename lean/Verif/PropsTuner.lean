import Verif.Tuner
import Verif.PropsParams2

/-!
# C78: the autotuner keeps the arguments file legal
-/
namespace Repro

variable {rnd : Int → Int → Option Int}

/-- Specification: a value within a range of the search. -/
def SRange.Mem : SRange → PyVal → Prop
  | .ints lo hi, v => ∃ n, v = .int n ∧ lo ≤ n ∧ n ≤ hi
  | .bool, v => ∃ b, v = .bool b
  | .pow2 lo hi, v => ∃ e : Nat, v = .int (2 ^ e) ∧ lo ≤ 2 ^ e ∧ (2 : Int) ^ e ≤ hi

/-- Specification: every value of the configuration is within the range given for its name. -/
def ConfigIn (s : Space) (vec bench : String) (c : Config) : Prop :=
  ∃ m, manipulator s vec bench = some m ∧ ∀ e ∈ c, ∃ r, (e.1, r) ∈ m ∧ r.Mem e.2

/-- Specification: all that the searches of a run say is within the ranges. -/
def Phase.In (s : Space) (vec : String) (ph : Phase) : Prop :=
  (∀ t ∈ ph.trials, ∀ c, some c ∈ t → ∃ b ∈ ph.benchs, ConfigIn s vec b c) ∧ (∀ c ∈ ph.best, ∃ b ∈ ph.benchs, ConfigIn s vec b c)

/-- Specification: a parameter space in which every parameter is listed under its name, has valid bounds in order, and a legal default. -/
def SpaceOK (s : Space) : Prop :=
  ∀ n p, dget s.params n = some p → p.name = n ∧ p.flavor.valid = true ∧ Ordered p.flavor ∧ Legal p.flavor p.default

/-- Specification: the arguments hold a legal value for every parameter. -/
def ArgsOK (s : Space) (a : List (String × PyVal)) : Prop := ∀ n p, dget s.params n = some p → ∃ v, dget a n = some v ∧ Legal p.flavor v

/-- Specification: a usable state of the arguments file. -/
def FileOK (s : Space) : FileSt → Prop
  | .missing => True
  | .broken => False
  | .ok a => ArgsOK s a

/-- Specification: the parameter `n` can be tuned with the benchmark `b`: the benchmark lists it and it is not one of another vectorization. -/
def Tuned (s : Space) (vec b n : String) : Prop := 
  ∃ l p, dget s.fmet b = some l ∧ n ∈ l ∧ dget s.params n = some p ∧ ∀ t, dget p.tags "vectorization" = some t → t = vec

theorem tunable_iff {p : Param} {vec : String} : p.tunable vec = true ↔ ∀ t, dget p.tags "vectorization" = some t → t = vec := by
  unfold Param.tunable
  cases dget p.tags "vectorization" <;> simp

theorem mapM_mem {α β : Type} {f : α → Option β} : ∀ {l : List α} {r : List β}, l.mapM f = some r → ∀ y ∈ r, ∃ x ∈ l, f x = some y
  | [], r, h => by
    rw [List.mapM_nil] at h
    cases h
    simp
  | x :: l, r, h => by
    rw [List.mapM_cons] at h
    simp only [Option.bind_eq_bind, Option.bind_eq_some_iff, Option.pure_def, Option.some.injEq] at h
    obtain ⟨y, hy, ys, hys, rfl⟩ := h
    intro z hz
    rcases List.mem_cons.1 hz with rfl | hz
    · exact ⟨x, List.mem_cons_self, hy⟩
    · obtain ⟨w, hw, e⟩ := mapM_mem hys z hz
      exact ⟨w, List.mem_cons_of_mem _ hw, e⟩

/-- What a proposed pair is. -/
theorem entry_of_config {s : Space} (hs : SpaceOK s) {vec b : String} {c : Config} (h : ConfigIn s vec b c) {e : String × PyVal} (he : e ∈ c) :
    ∃ p, dget s.params e.1 = some p ∧ p.name = e.1 ∧ p.srange.Mem e.2 ∧ Tuned s vec b e.1 := by
  obtain ⟨m, hm, hc⟩ := h
  obtain ⟨r, hr, hmem⟩ := hc e he
  unfold manipulator at hm
  simp only [Option.bind_eq_bind, Option.bind_eq_some_iff, Option.pure_def, Option.some.injEq] at hm
  obtain ⟨names, h1, ps, h2, rfl⟩ := hm
  obtain ⟨p, hp, e2⟩ := List.mem_map.1 hr
  rw [List.mem_filter] at hp
  obtain ⟨n, hn, e3⟩ := mapM_mem h2 p hp.1
  obtain ⟨q1, _⟩ := hs n p e3
  have e4 : p.name = e.1 := congrArg Prod.fst e2
  have e5 : p.srange = r := congrArg Prod.snd e2
  have e6 : n = e.1 := by rw [← q1, e4]
  subst e6
  exact ⟨p, e3, e4, by rw [e5]; exact hmem, names, p, h1, hn, e3, tunable_iff.1 hp.2⟩

/-- A proposed value becomes a legal one. -/
theorem toArg_legal {p : Param} (hv : p.flavor.valid = true) {v : PyVal} (h : p.srange.Mem v) : ∃ w, p.toArg v = some w ∧ Legal p.flavor w := by
  unfold Param.srange at h
  unfold Param.toArg
  cases hf : p.flavor with
  | boolean =>
    rw [hf] at h
    exact ⟨v, rfl, h⟩
  | poweroftwo mn mx =>
    rw [hf] at h
    exact ⟨v, rfl, h⟩
  | integer mn mx step =>
    rw [hf] at h hv
    obtain ⟨n, rfl, h1, h2⟩ := h
    simp only [Flavor.valid, Bool.and_eq_true, decide_eq_true_eq, beq_iff_eq] at hv
    obtain ⟨⟨⟨hs, hmn⟩, hmx⟩, _⟩ := hv
    refine ⟨_, rfl, n * step, rfl, ?_, ?_, Int.mul_emod_left _ _⟩
    · have a := Int.mul_ediv_add_emod mn step
      have b := Int.mul_le_mul_of_nonneg_right h1 (le_of_lt hs)
      rw [hmn, mul_comm] at a
      omega
    · have a := Int.mul_ediv_add_emod mx step
      have b := Int.mul_le_mul_of_nonneg_right h2 (le_of_lt hs)
      rw [hmx, mul_comm] at a
      omega

/-- Applying a configuration: no exception, legal values stay legal, and only the named parameters change. -/
theorem applyConf_ok {s : Space} (hs : SpaceOK s) {vec b : String} : ∀ {c : Config} {a : List (String × PyVal)}, ConfigIn s vec b c → ArgsOK s a →
    ∃ a', applyConf s a c = some a' ∧ ArgsOK s a' ∧ (∀ n, ¬ Tuned s vec b n → dget a' n = dget a n) ∧
      (∀ n, dget a' n = match (c.reverse.find? (fun e => e.1 == n)) with
        | none => dget a n
        | some e => (dget s.params n).bind (fun p => p.toArg e.2))
  | [], a, _, ha => ⟨a, rfl, ha, fun _ _ => rfl, fun _ => rfl⟩
  | e :: c, a, hc, ha => by
    obtain ⟨p, hp, hn, hm, ht⟩ := entry_of_config hs hc (e := e) List.mem_cons_self
    obtain ⟨_, hv, _, _⟩ := hs _ p hp
    obtain ⟨w, hw, hl⟩ := toArg_legal hv hm
    have hc' : ConfigIn s vec b c := by
      obtain ⟨m, h1, h2⟩ := hc
      exact ⟨m, h1, fun e he => h2 e (List.mem_cons_of_mem _ he)⟩
    have ha' : ArgsOK s (dset a p.name w) := by
      intro n q hq
      rw [dget_dset, hn]
      by_cases hk : e.1 = n
      · rw [if_pos hk]
        subst hk
        rw [hp] at hq
        cases hq
        exact ⟨w, rfl, hl⟩
      · rw [if_neg hk]
        exact ha n q hq
    obtain ⟨a', h1, h2, h3, h4⟩ := applyConf_ok hs hc' ha'
    refine ⟨a', ?_, h2, ?_, ?_⟩
    · unfold applyConf
      rw [List.foldlM_cons, hp]
      simp only [Option.bind_some, hw, Option.map_some, Option.bind_eq_bind]
      exact h1
    · intro n hnt
      rw [h3 n hnt, dget_dset, hn, if_neg]
      rintro rfl
      exact hnt ht
    · intro n
      rw [h4 n, List.reverse_cons, List.find?_append]
      cases hf : c.reverse.find? (fun e => e.1 == n) with
      | some e' => rfl
      | none =>
        simp only [Option.none_or]
        rw [dget_dset, hn]
        by_cases hk : e.1 = n
        · subst hk
          simp [hp, hw]
        · simp [hk]

theorem applyAll_ok {s : Space} (hs : SpaceOK s) {vec : String} {bs : List String} : ∀ {cs : List Config} {a : List (String × PyVal)}, (∀ c ∈ cs, ∃ b ∈ bs, ConfigIn s vec b c) → ArgsOK s a →
    ∃ a', cs.foldlM (applyConf s) a = some a' ∧ ArgsOK s a' ∧ (∀ n, (∀ b ∈ bs, ¬ Tuned s vec b n) → dget a' n = dget a n) ∧
      (∀ n, dget a' n = match (cs.flatten.reverse.find? (fun e => e.1 == n)) with
        | none => dget a n
        | some e => (dget s.params n).bind (fun p => p.toArg e.2))
  | [], a, _, ha => ⟨a, rfl, ha, fun _ _ => rfl, fun _ => rfl⟩
  | c :: cs, a, hc, ha => by
    obtain ⟨b, hb, hcb⟩ := hc c List.mem_cons_self
    obtain ⟨a1, e1, o1, u1, f1⟩ := applyConf_ok hs hcb ha
    obtain ⟨a2, e2, o2, u2, f2⟩ := applyAll_ok hs (fun c h => hc c (List.mem_cons_of_mem _ h)) o1
    refine ⟨a2, ?_, o2, fun n hn => by rw [u2 n hn, u1 n (hn b hb)], ?_⟩
    · rw [List.foldlM_cons, e1]
      exact e2
    · intro n
      rw [f2 n, List.flatten_cons, List.reverse_append, List.find?_append]
      cases hf : cs.flatten.reverse.find? (fun e => e.1 == n) with
      | some e' => rfl
      | none => simp only [Option.none_or]; exact f1 n

/-- Specification of the states the file may pass through: being rewritten, or legal arguments that agree with `a0` except at parameters tuned with the benchmarks. -/
def StepOK (s : Space) (vec : String) (bs : List String) (a0 : List (String × PyVal)) : FileSt → Prop
  | .missing => False
  | .broken => True
  | .ok a => ArgsOK s a ∧ ∀ n, (∀ b ∈ bs, ¬ Tuned s vec b n) → dget a n = dget a0 n

theorem runTrials_ok {s : Space} (hs : SpaceOK s) {vec : String} {bs : List String} {a0 : List (String × PyVal)} (ha : ArgsOK s a0) : ∀ {ts : List (List (Option Config))},
    (∀ t ∈ ts, ∀ c, some c ∈ t → ∃ b ∈ bs, ConfigIn s vec b c) → (runTrials s a0 ts).2 = true ∧ ∀ f ∈ (runTrials s a0 ts).1, StepOK s vec bs a0 f
  | [], _ => ⟨rfl, by simp [runTrials]⟩
  | t :: ts, h => by
    have ih := runTrials_ok hs ha (fun t ht => h t (List.mem_cons_of_mem _ ht))
    obtain ⟨a, e, o, u, _⟩ := applyAll_ok hs (cs := t.filterMap id) (bs := bs) (fun c hc => h t List.mem_cons_self c (by
      obtain ⟨x, hx, e⟩ := List.mem_filterMap.1 hc
      have : x = some c := e
      exact this ▸ hx)) ha
    unfold runTrials
    rw [e]
    dsimp only
    split
    · exact ih
    · refine ⟨ih.1, ?_⟩
      intro f hf
      rcases List.mem_cons.1 hf with rfl | hf
      · trivial
      · rcases List.mem_cons.1 hf with rfl | hf
        · exact ⟨o, u⟩
        · exact ih.2 f hf

theorem defaults_ok {s : Space} (hs : SpaceOK s) (hn : (s.params.map (·.1)).Nodup) : ArgsOK s s.defaults := by
  intro n p hp
  have e : s.params.map (fun e => (e.2.name, e.2.default)) = s.params.map (fun e => (e.1, e.2.default)) := by
    refine List.map_congr_left (fun e he => ?_)
    rw [(hs e.1 e.2 ((dget_mem hn).2 he)).1]
  refine ⟨p.default, ?_, (hs n p hp).2.2.2⟩
  unfold Space.defaults
  rw [e, dictOf_nodup (by rw [List.map_map]; exact hn), dget_map (h := fun e : String × Param => (e.1, e.2.default)) (fun _ q => q.default) (fun _ => rfl), hp]
  rfl

theorem start_ok {s : Space} (hs : SpaceOK s) (hn : (s.params.map (·.1)).Nodup) {f : FileSt} (hf : FileOK s f) : ∃ a, startArgs s f = some a ∧ ArgsOK s a := by
  cases f with
  | missing => exact ⟨_, rfl, defaults_ok hs hn⟩
  | broken => exact hf.elim
  | ok a => exact ⟨a, rfl, hf⟩

theorem tunerRun_ok {s : Space} (hs : SpaceOK s) (hn : (s.params.map (·.1)).Nodup) {vec : String} {f : FileSt} (hf : FileOK s f) {ph : Phase} (hp : ph.In s vec) :
    ∃ a0 b l, startArgs s f = some a0 ∧ ArgsOK s a0 ∧ tunerRun s f ph = (l ++ [.broken, .ok b], true) ∧ (∀ g ∈ l, StepOK s vec ph.benchs a0 g) ∧ StepOK s vec ph.benchs a0 (.ok b) ∧
      (∀ n, dget b n = match (ph.best.flatten.reverse.find? (fun e => e.1 == n)) with
        | none => dget a0 n
        | some e => (dget s.params n).bind (fun p => p.toArg e.2)) := by
  obtain ⟨a0, h0, ha⟩ := start_ok hs hn hf
  have ⟨t1, t2⟩ := runTrials_ok hs (vec := vec) (bs := ph.benchs) ha hp.1
  obtain ⟨b, e, o, u, f1⟩ := applyAll_ok hs hp.2 ha
  refine ⟨a0, b, (runTrials s a0 ph.trials).1, h0, ha, ?_, t2, ⟨o, u⟩, f1⟩
  unfold tunerRun
  rw [h0]
  dsimp only
  rw [if_pos t1, e]

/-- The parameters that no run of the session may change. -/
def Fixed (s : Space) (vec : String) (phs : List Phase) (n : String) : Prop := ∀ ph ∈ phs, ∀ b ∈ ph.benchs, ¬ Tuned s vec b n

theorem session_ok {s : Space} (hs : SpaceOK s) (hn : (s.params.map (·.1)).Nodup) {vec : String} : ∀ {phs : List Phase} {f : FileSt}, FileOK s f → (∀ ph ∈ phs, ph.In s vec) →
    ∃ a0, startArgs s f = some a0 ∧ (session s f phs).2 = true ∧ (∃ l, (session s f phs).1 = f :: l ∧ ∀ g ∈ l, g = .broken ∨
      ∃ a, g = .ok a ∧ ArgsOK s a ∧ ∀ n, Fixed s vec phs n → dget a n = dget a0 n) ∧
    (phs ≠ [] → ∃ b, (session s f phs).1.getLast? = some (.ok b) ∧ ArgsOK s b)
  | [], f, hf, _ => by
    obtain ⟨a0, h0, _⟩ := start_ok hs hn hf
    exact ⟨a0, h0, rfl, ⟨[], rfl, by simp⟩, fun h => absurd rfl h⟩
  | ph :: phs, f, hf, hp => by
    obtain ⟨a0, b, l, h0, ha, er, hl, hb, _⟩ := tunerRun_ok hs hn hf (hp ph List.mem_cons_self)
    have hlast : ∀ h, (f :: (tunerRun s f ph).1).getLast h = .ok b := by
      rw [er]; intro h
      rw [List.getLast_cons (by simp), List.getLast_append_of_ne_nil (by simp) (by simp)]
      rfl
    have hdrop : (f :: (tunerRun s f ph).1).dropLast = f :: (l ++ [.broken]) := by
      rw [er]
      show (f :: (l ++ [.broken, .ok b])).dropLast = _
      rw [show f :: (l ++ [FileSt.broken, .ok b]) = (f :: (l ++ [.broken])) ++ [.ok b] by simp, List.dropLast_concat]
    obtain ⟨a1, h1, q1, ⟨l', q2, q3⟩, q4⟩ := session_ok hs hn (f := .ok b) (phs := phs) hb.1 (fun ph h => hp ph (List.mem_cons_of_mem _ h))
    have ea : a1 = b := (Option.some.inj h1).symm
    subst ea
    have es : session s f (ph :: phs) = (f :: (l ++ [.broken]) ++ (session s (.ok a1) phs).1, (session s (.ok a1) phs).2) := by
      show (if (tunerRun s f ph).2 = true then _ else _) = _
      rw [if_pos (by rw [er])]
      simp only [hlast, hdrop]
    rw [es]
    refine ⟨a0, h0, q1, ⟨l ++ [.broken] ++ .ok a1 :: l', by rw [q2]; simp, ?_⟩, fun _ => ?_⟩
    · intro g hg
      rcases List.mem_append.1 hg with hg | hg
      · rcases List.mem_append.1 hg with hg | hg
        · have := hl g hg
          cases g with
          | missing => exact this.elim
          | broken => exact Or.inl rfl
          | ok a => exact Or.inr ⟨a, rfl, this.1, fun n hnf => this.2 n (hnf ph List.mem_cons_self)⟩
        · rw [List.mem_singleton] at hg
          exact Or.inl hg
      · rcases List.mem_cons.1 hg with rfl | hg
        · exact Or.inr ⟨a1, rfl, hb.1, fun n hnf => hb.2 n (hnf ph List.mem_cons_self)⟩
        · rcases q3 g hg with h | ⟨a, rfl, h2, h3⟩
          · exact Or.inl h
          · exact Or.inr ⟨a, rfl, h2, fun n hnf => by rw [h3 n (fun q hq => hnf q (List.mem_cons_of_mem _ hq)), hb.2 n (hnf ph List.mem_cons_self)]⟩
    · dsimp only
      rw [List.getLast?_append]
      by_cases hph : phs = []
      · subst hph
        exact ⟨a1, by simp [session], hb.1⟩
      · obtain ⟨b', e, o⟩ := q4 hph
        exact ⟨b', by rw [e]; rfl, o⟩

/-- **C78** (every moment of tuning). Whatever the searches propose within the ranges they are given: tuning raises no exception of its own; at every moment, so at every
crash point, the arguments file is as before the start, or just being written, or holds a legal value of every parameter; the values of parameters that no tuned benchmark
lists, and of those of other vectorizations, are those of the start; at the end the file holds legal values. -/
theorem C78_every_moment {s : Space} (hs : SpaceOK s) (hn : (s.params.map (·.1)).Nodup) {vec : String} {phs : List Phase} {f : FileSt} (hf : FileOK s f)
    (hp : ∀ ph ∈ phs, ph.In s vec) :
    ∃ a0, startArgs s f = some a0 ∧ (session s f phs).2 = true ∧
      (∀ (i : Nat) (g : FileSt), (session s f phs).1[i]? = some g → (i = 0 ∧ g = f) ∨ g = .broken ∨
        ∃ a, g = .ok a ∧ ArgsOK s a ∧ ∀ n, Fixed s vec phs n → dget a n = dget a0 n) ∧
      (phs ≠ [] → ∃ b, (session s f phs).1.getLast? = some (.ok b) ∧ ArgsOK s b) := by
  obtain ⟨a0, h0, h1, ⟨l, h2, h3⟩, h4⟩ := session_ok hs hn hf hp
  refine ⟨a0, h0, h1, ?_, h4⟩
  intro i g hg
  rw [h2] at hg
  cases i with
  | zero => left; simp at hg; exact ⟨rfl, hg.symm⟩
  | succ i =>
    right
    rw [List.getElem?_cons_succ] at hg
    exact h3 g (List.mem_of_getElem? hg)

theorem mapM_isSome {α β : Type} {f : α → Option β} : ∀ {l : List α}, (∀ x ∈ l, (f x).isSome) → ∃ r, l.mapM f = some r ∧ ∀ x ∈ l, ∀ y, f x = some y → y ∈ r
  | [], _ => ⟨[], rfl, by simp⟩
  | x :: l, h => by
    obtain ⟨y, hy⟩ := Option.isSome_iff_exists.1 (h x List.mem_cons_self)
    obtain ⟨r, hr, hm⟩ := mapM_isSome (fun z hz => h z (List.mem_cons_of_mem _ hz))
    refine ⟨y :: r, by rw [List.mapM_cons, hy, hr]; rfl, ?_⟩
    intro z hz w hw
    rcases List.mem_cons.1 hz with rfl | hz
    · rw [hy] at hw; cases hw; exact List.mem_cons_self
    · exact List.mem_cons_of_mem _ (hm z hz w hw)

/-- **C78** (the search space). The search of a benchmark whose parameters all exist is given every parameter that can be tuned with it, and no other one, and the values that its
proposals in range lead to are exactly the legal ones. -/
theorem C78_search_space {s : Space} (hs : SpaceOK s) {vec b : String} {l : List String} (hb : dget s.fmet b = some l) (hl : ∀ n ∈ l, (dget s.params n).isSome) :
    ∃ m, manipulator s vec b = some m ∧ (∀ n, (∃ r, (n, r) ∈ m) ↔ Tuned s vec b n) ∧
      ∀ n r p, (n, r) ∈ m → dget s.params n = some p → ∀ w, Legal p.flavor w ↔ ∃ v, r.Mem v ∧ p.toArg v = some w := by
  obtain ⟨ps, h1, h2⟩ := mapM_isSome hl
  have hm : manipulator s vec b = some ((ps.filter (Param.tunable vec)).map (fun p => (p.name, p.srange))) := by
    unfold manipulator
    simp only [hb, h1, Option.bind_eq_bind, Option.bind_some]
    rfl
  have key : ∀ n r, (n, r) ∈ (ps.filter (Param.tunable vec)).map (fun p => (p.name, p.srange)) → ∃ p, dget s.params n = some p ∧ p.srange = r ∧ n ∈ l ∧ p.tunable vec = true := by
    intro n r h
    obtain ⟨p, hp, e⟩ := List.mem_map.1 h
    rw [List.mem_filter] at hp
    obtain ⟨k, hk, ek⟩ := mapM_mem h1 p hp.1
    have : k = n := by rw [← (hs k p ek).1]; exact congrArg Prod.fst e
    subst this
    exact ⟨p, ek, congrArg Prod.snd e, hk, hp.2⟩
  refine ⟨_, hm, fun n => ⟨?_, ?_⟩, ?_⟩
  · rintro ⟨r, h⟩
    obtain ⟨p, q1, _, q2, q3⟩ := key n r h
    exact ⟨l, p, hb, q2, q1, tunable_iff.1 q3⟩
  · rintro ⟨l', p, q0, q1, q2, q3⟩
    rw [hb] at q0; cases q0
    refine ⟨p.srange, List.mem_map.2 ⟨p, List.mem_filter.2 ⟨h2 n q1 p q2, tunable_iff.2 q3⟩, by rw [(hs n p q2).1]⟩⟩
  · intro n r p h hp w
    obtain ⟨p', q1, rfl, _, _⟩ := key n r h
    rw [hp] at q1; cases q1
    obtain ⟨_, hv, _⟩ := hs n p hp
    constructor
    · intro hw
      unfold Param.srange Param.toArg
      cases hf : p.flavor with
      | boolean => rw [hf] at hw; exact ⟨w, hw, rfl⟩
      | poweroftwo mn mx => rw [hf] at hw; exact ⟨w, hw, rfl⟩
      | integer mn mx step =>
        rw [hf] at hw hv
        obtain ⟨k, rfl, a1, a2, a3⟩ := hw
        simp only [Flavor.valid, Bool.and_eq_true, decide_eq_true_eq, beq_iff_eq] at hv
        obtain ⟨⟨⟨hs, _⟩, _⟩, _⟩ := hv
        refine ⟨.int (k / step), ⟨_, rfl, Int.ediv_le_ediv hs a1, Int.ediv_le_ediv hs a2⟩, ?_⟩
        show some (PyVal.int (k / step * step)) = _
        rw [Int.ediv_mul_cancel (Int.dvd_of_emod_eq_zero a3)]
    · rintro ⟨v, h1, h2⟩
      obtain ⟨w', q1, q2⟩ := toArg_legal hv h1
      rw [q1] at h2; cases h2
      exact q2

/-- **C78** (restart). From every crash point outside of a write the tuner can be started again, with any searches. -/
theorem C78_restart {s : Space} (hs : SpaceOK s) (hn : (s.params.map (·.1)).Nodup) {vec : String} {phs phs' : List Phase} {f : FileSt} (hf : FileOK s f)
    (hp : ∀ ph ∈ phs, ph.In s vec) (hp' : ∀ ph ∈ phs', ph.In s vec) {g : FileSt} (hg : g ∈ (session s f phs).1) (hb : g ≠ .broken) : (session s g phs').2 = true := by
  obtain ⟨a0, h0, h1, h2, _⟩ := C78_every_moment hs hn hf hp
  obtain ⟨i, hi⟩ := List.mem_iff_getElem?.1 hg
  have : FileOK s g := by
    rcases h2 i g hi with ⟨_, rfl⟩ | h | ⟨a, rfl, h, _⟩
    · exact hf
    · exact absurd h hb
    · exact h
  obtain ⟨_, _, h, _⟩ := C78_every_moment hs hn this hp'
  exact h

/-- **C78** (the result of a run). The value of a parameter after a run is the one in the best configuration of the last benchmark that has the parameter, times the step, or else
the value before the run. -/
theorem C78_final {s : Space} (hs : SpaceOK s) (hn : (s.params.map (·.1)).Nodup) {vec : String} {f : FileSt} (hf : FileOK s f) {ph : Phase} (hp : ph.In s vec) :
    ∃ a0 b, startArgs s f = some a0 ∧ (tunerRun s f ph).1.getLast? = some (.ok b) ∧
      (∀ n p e, dget s.params n = some p → ph.best.flatten.reverse.find? (fun e => e.1 == n) = some e → dget b n = p.toArg e.2) ∧
      (∀ n, (∀ e ∈ ph.best.flatten, e.1 ≠ n) → dget b n = dget a0 n) := by
  obtain ⟨a0, b, l, h0, ha, er, hl, hb, hf'⟩ := tunerRun_ok hs hn hf hp
  refine ⟨a0, b, h0, ?_, ?_, ?_⟩
  · rw [er]
    show (l ++ [FileSt.broken, .ok b]).getLast? = _
    rw [List.getLast?_append]; rfl
  · intro n p e h1 h2
    rw [hf' n, h2]
    simp [h1]
  · intro n h
    rw [hf' n]
    have : ph.best.flatten.reverse.find? (fun e => e.1 == n) = none := by
      rw [List.find?_eq_none]
      intro e he
      have := h e (List.mem_reverse.1 he)
      simpa using this
    rw [this]

/-- **C78** (use of the file). From every state in which the tuner leaves the file, outside of a write, the code of a target is generated with exactly the values in the file:
the parser changes none of them. -/
theorem C78_generate {s : Space} {a : List (String × PyVal)} (ha : ArgsOK s a) {t : Target} (ht : ∀ n ∈ t.arguments, (dget s.params n).isSome) :
    ∃ d, generateFrom rnd s (.ok a) t = some d ∧ ∀ n, dget d n = if n ∈ t.arguments then dget a n else none := by
  have gen : ∀ (l : List String) (d0 : List (String × PyVal)), (∀ n ∈ l, (dget s.params n).isSome) →
      ∃ d, l.foldlM (fun d n => (s.getValue rnd n a).map (dset d n)) d0 = some d ∧ ∀ n, dget d n = if n ∈ l then dget a n else dget d0 n := by
    intro l
    induction l with
    | nil => intro d0 _; exact ⟨d0, rfl, fun n => by simp⟩
    | cons m l ih =>
      intro d0 hl
      obtain ⟨p, hp⟩ := Option.isSome_iff_exists.1 (hl m List.mem_cons_self)
      obtain ⟨v, hv, hleg⟩ := ha m p hp
      have e : s.getValue rnd m a = some v := by
        unfold Space.getValue
        simp only [hv, hp, Option.bind_eq_bind, Option.bind_some]
        exact C38_keeps hleg
      obtain ⟨d, h1, h2⟩ := ih (dset d0 m v) (fun n hn => hl n (List.mem_cons_of_mem _ hn))
      refine ⟨d, ?_, ?_⟩
      · rw [List.foldlM_cons, e]
        exact h1
      · intro n
        rw [h2 n, dget_dset]
        by_cases hm : m = n
        · subst hm; simp [hv]
        · by_cases hnl : n ∈ l
          · rw [if_pos hnl, if_pos (List.mem_cons_of_mem _ hnl)]
          · rw [if_neg hnl, if_neg hm, if_neg (by simp [hnl, Ne.symm hm])]
  obtain ⟨d, h1, h2⟩ := gen t.arguments [] ht
  exact ⟨d, h1, h2⟩

/-- **C78, the failure**: the file is not replaced atomically. After a crash while the file is written, every further tuning and every generation of code fails. -/
theorem C78_broken_violated (s : Space) (ph : Phase) (phs : List Phase) (t : Target) :
    session s .broken (ph :: phs) = ([.broken], false) ∧ generateFrom rnd s .broken t = none := ⟨rfl, rfl⟩

/-! ### A concrete case -/

/-- A space with an integer, a block size and a parameter of another vectorization; two benchmarks share the integer. -/
def exSpace : Space := ⟨[], [], [("b1", ["unroll", "block", "avx"]), ("b2", ["unroll"])], [],
  [("unroll", ⟨"unroll", [("vectorization", "SSE")], .integer 2 16 2, .int 4⟩), ("block", ⟨"block", [], .poweroftwo 32 2048, .int 64⟩),
   ("avx", ⟨"avx", [("vectorization", "AVX")], .boolean, .bool true⟩)]⟩

/-- One trial with a proposal of the first benchmark only, one without proposals, and the best configurations. -/
def exPhase : Phase := ⟨["b1", "b2"], [[some [("unroll", .int 8), ("block", .int 2048)], none], [none, none]], [[("block", .int 32), ("unroll", .int 1)], [("unroll", .int 3)]]⟩

theorem exSpace_ok : SpaceOK exSpace := by
  intro n p h
  simp only [exSpace, dget_cons, dget_nil] at h
  split at h
  · cases h; subst n; exact ⟨rfl, by decide, by simp [Ordered], 4, rfl, by decide, by decide, by decide⟩
  · split at h
    · cases h; subst n; exact ⟨rfl, by decide, by simp [Ordered], 6, rfl, by decide, by decide⟩
    · split at h
      · cases h; subst n; exact ⟨rfl, by decide, trivial, true, rfl⟩
      · cases h

/-- The search of the first benchmark for SSE: the parameter of AVX is left out. -/
example : ∃ m, manipulator exSpace "SSE" "b1" = some m ∧ (∀ n, (∃ r, (n, r) ∈ m) ↔ Tuned exSpace "SSE" "b1" n) :=
  let ⟨m, h1, h2, _⟩ := C78_search_space (vec := "SSE") (b := "b1") exSpace_ok rfl (by decide +kernel)
  ⟨m, h1, h2⟩

theorem exPhase_in : exPhase.In exSpace "SSE" := by
  have m1 : manipulator exSpace "SSE" "b1" = some [("unroll", .ints 1 8), ("block", .pow2 32 2048)] := by decide +kernel
  have m2 : manipulator exSpace "SSE" "b2" = some [("unroll", .ints 1 8)] := by decide +kernel
  constructor
  · intro t ht c hc
    simp only [exPhase, List.mem_cons, List.not_mem_nil, or_false] at ht
    rcases ht with rfl | rfl
    · simp only [List.mem_cons, Option.some.injEq, reduceCtorEq, List.not_mem_nil, or_false] at hc
      subst hc
      refine ⟨"b1", by simp [exPhase], _, m1, ?_⟩
      intro e he
      simp only [List.mem_cons, List.not_mem_nil, or_false] at he
      rcases he with rfl | rfl
      · exact ⟨.ints 1 8, by simp, 8, rfl, by decide, by decide⟩
      · exact ⟨.pow2 32 2048, by simp, 11, rfl, by decide, by decide⟩
    · simp at hc
  · intro c hc
    simp only [exPhase, List.mem_cons, List.not_mem_nil, or_false] at hc
    rcases hc with rfl | rfl
    · refine ⟨"b1", by simp [exPhase], _, m1, ?_⟩
      intro e he
      simp only [List.mem_cons, List.not_mem_nil, or_false] at he
      rcases he with rfl | rfl
      · exact ⟨.pow2 32 2048, by simp, 5, rfl, by decide, by decide⟩
      · exact ⟨.ints 1 8, by simp, 1, rfl, by decide, by decide⟩
    · refine ⟨"b2", by simp [exPhase], _, m2, ?_⟩
      intro e he
      simp only [List.mem_cons, List.not_mem_nil, or_false] at he
      subst he
      exact ⟨.ints 1 8, by simp, 3, rfl, by decide, by decide⟩

/-- The run on a missing file: the trial writes 16 and 2048, the end 6 (the last benchmark wins) and 32. -/
example : session exSpace .missing [exPhase] =
    ([.missing, .broken, .ok [("unroll", .int 16), ("block", .int 2048), ("avx", .bool true)], .broken, .ok [("unroll", .int 6), ("block", .int 32), ("avx", .bool true)]], true) := by
  decide +kernel

/-- **C78** (interruption). A crash in the middle of a run leaves the values of the last trial, which need be neither those before the run nor the best ones. -/
theorem C78_interrupted_violated : ∃ (s : Space) (ph : Phase) (a0 a b : List (String × PyVal)), SpaceOK s ∧ ph.In s "SSE" ∧ ArgsOK s a0 ∧ FileSt.ok a ∈ (session s (.ok a0) [ph]).1 ∧
    (session s (.ok a0) [ph]).1.getLast? = some (.ok b) ∧ a ≠ a0 ∧ a ≠ b :=
  ⟨exSpace, exPhase, exSpace.defaults, [("unroll", .int 16), ("block", .int 2048), ("avx", .bool true)], [("unroll", .int 6), ("block", .int 32), ("avx", .bool true)],
    exSpace_ok, exPhase_in, defaults_ok exSpace_ok (by decide +kernel), by decide +kernel, by decide +kernel, by decide +kernel, by decide +kernel⟩

end Repro

import Verif.PropsParams
import Mathlib.Data.List.Nodup
/-!
# Dictionaries, sets and parameter files: lemmas
-/
namespace Repro

section
variable {α β : Type}

theorem dget_cons (e : String × α) (d : List (String × α)) (k : String) :
    dget (e :: d) k = if e.1 = k then some e.2 else dget d k := by
  unfold dget
  rw [List.find?_cons]
  by_cases h : e.1 = k
  · simp [h]
  · rw [if_neg h, beq_eq_false_iff_ne.2 h]

@[simp] theorem dget_nil (k : String) : dget ([] : List (String × α)) k = none := rfl

theorem dget_isSome {d : List (String × α)} {k : String} : (dget d k).isSome ↔ k ∈ d.map (·.1) := by
  induction d with
  | nil => simp
  | cons e d ih =>
    rw [dget_cons]
    by_cases h : e.1 = k
    · simp [h]
    · rw [if_neg h, ih]; simp [Ne.symm h]

theorem any_key {d : List (String × α)} {k : String} : (d.any (fun e => e.1 == k)) = true ↔ k ∈ d.map (·.1) := by
  induction d with
  | nil => simp
  | cons e d ih =>
    rw [List.any_cons, Bool.or_eq_true, ih, List.map_cons, List.mem_cons, beq_iff_eq]
    exact or_congr ⟨Eq.symm, Eq.symm⟩ Iff.rfl

theorem dget_append (d d' : List (String × α)) (k : String) : dget (d ++ d') k = (dget d k).or (dget d' k) := by
  induction d with
  | nil => simp
  | cons e d ih =>
    rw [List.cons_append, dget_cons, dget_cons, ih]
    by_cases h : e.1 = k <;> simp [h]

theorem dget_map (g : String → α → β) {h : String × α → String × β} (hh : ∀ e, h e = (e.1, g e.1 e.2)) (d : List (String × α)) (k : String) :
    dget (d.map h) k = (dget d k).map (g k) := by
  rw [funext hh]
  induction d with
  | nil => simp
  | cons e d ih =>
    rw [List.map_cons, dget_cons, dget_cons, ih]
    by_cases h : e.1 = k
    · subst h; simp
    · simp [h]

theorem dget_dset (d : List (String × α)) (k k' : String) (v : α) :
    dget (dset d k v) k' = if k = k' then some v else dget d k' := by
  unfold dset
  split
  · rename_i h
    have hk := dget_isSome.2 (any_key.1 h)
    rw [dget_map (fun s x => if s = k then v else x) (fun e => by by_cases he : e.1 = k <;> simp [he])]
    by_cases h' : k = k'
    · subst h'
      obtain ⟨x, hx⟩ := Option.isSome_iff_exists.1 hk
      simp [hx]
    · cases dget d k' <;> simp [h', Ne.symm h']
  · rename_i h
    rw [dget_append, dget_cons]
    have hk : dget d k = none := by
      cases hd : dget d k with
      | none => rfl
      | some x => exact absurd (any_key.2 (dget_isSome.1 (by rw [hd]; rfl))) h
    by_cases h' : k = k'
    · subst h'; simp [hk]
    · simp [h']

theorem keys_dset (d : List (String × α)) (k : String) (v : α) :
    (dset d k v).map (·.1) = if k ∈ d.map (·.1) then d.map (·.1) else d.map (·.1) ++ [k] := by
  unfold dset
  by_cases h : k ∈ d.map (·.1)
  · rw [if_pos h, if_pos (any_key.2 h), List.map_map]
    apply List.map_congr_left
    intro e _
    by_cases he : e.1 = k <;> simp [he]
  · rw [if_neg h, if_neg (fun h' => h (any_key.1 h'))]; simp

theorem nodup_dset {d : List (String × α)} (h : (d.map (·.1)).Nodup) (k : String) (v : α) : ((dset d k v).map (·.1)).Nodup := by
  rw [keys_dset]
  split
  · exact h
  · rename_i hk
    rw [List.nodup_append]
    refine ⟨h, List.nodup_singleton _, ?_⟩
    intro a ha b hb
    rw [List.mem_singleton] at hb
    subst hb
    exact fun e => hk (e ▸ ha)

theorem dget_mem {d : List (String × α)} (h : (d.map (·.1)).Nodup) {k : String} {v : α} : dget d k = some v ↔ (k, v) ∈ d := by
  induction d with
  | nil => simp
  | cons e d ih =>
    rw [List.map_cons, List.nodup_cons] at h
    rw [dget_cons, List.mem_cons]
    by_cases he : e.1 = k
    · rw [if_pos he, Option.some.injEq]
      constructor
      · intro hv; left; rw [← he, ← hv]
      · rintro (hv | hv)
        · rw [← hv]
        · exact absurd (List.mem_map.2 ⟨_, hv, he.symm⟩) h.1
    · rw [if_neg he, ih h.2]
      constructor
      · exact Or.inr
      · rintro (hv | hv)
        · exact absurd (by rw [← hv]) he
        · exact hv

theorem dget_perm {d d' : List (String × α)} (hp : d.Perm d') (h : (d.map (·.1)).Nodup) (k : String) : dget d k = dget d' k := by
  have h' : (d'.map (·.1)).Nodup := (hp.map _).nodup_iff.1 h
  apply Option.ext
  intro v
  rw [dget_mem h, dget_mem h', hp.mem_iff]

theorem insKey_perm (key : α → String) (a : α) (l : List α) : (insKey key a l).Perm (a :: l) := by
  induction l with
  | nil => exact List.Perm.refl _
  | cons b l ih =>
    unfold insKey
    split
    · exact (List.Perm.cons b ih).trans (List.Perm.swap a b l)
    · exact List.Perm.refl _

theorem sortKey_perm (key : α → String) (l : List α) : (sortKey key l).Perm l := by
  induction l with
  | nil => exact List.Perm.refl _
  | cons a l ih => exact (insKey_perm key a _).trans (List.Perm.cons a ih)

theorem insKey_map {key : α → String} {key' : β → String} (h : α → β) (hk : ∀ a, key' (h a) = key a) (a : α) (l : List α) :
    insKey key' (h a) (l.map h) = (insKey key a l).map h := by
  induction l with
  | nil => rfl
  | cons b l ih =>
    simp only [List.map_cons, insKey, hk]
    split
    · rw [List.map_cons, ih]
    · rfl

theorem sortKey_map {key : α → String} {key' : β → String} (h : α → β) (hk : ∀ a, key' (h a) = key a) (l : List α) :
    sortKey key' (l.map h) = (sortKey key l).map h := by
  induction l with
  | nil => rfl
  | cons a l ih =>
    simp only [List.map_cons, sortKey]
    rw [ih, insKey_map h hk]

theorem mapM_some (g : α → β) (f : α → Option β) (l : List α) (h : ∀ a ∈ l, f a = some (g a)) : l.mapM f = some (l.map g) := by
  induction l with
  | nil => rfl
  | cons a l ih =>
    rw [List.mapM_cons, h a List.mem_cons_self, ih (fun b hb => h b (List.mem_cons_of_mem _ hb))]
    rfl

theorem dictOf_snoc (l : List (String × α)) (e : String × α) : dictOf (l ++ [e]) = dset (dictOf l) e.1 e.2 := by
  unfold dictOf; rw [List.foldl_append]; rfl

theorem dictOf_nodup {l : List (String × α)} (h : (l.map (·.1)).Nodup) : dictOf l = l := by
  have gen : ∀ (l d : List (String × α)), ((d ++ l).map (·.1)).Nodup → l.foldl (fun d e => dset d e.1 e.2) d = d ++ l := by
    intro l
    induction l with
    | nil => intro d _; simp
    | cons e l ih =>
      intro d hd
      rw [List.foldl_cons]
      have hne : ¬ (d.any (fun x => x.1 == e.1)) = true := by
        rw [any_key]
        rw [List.map_append, List.nodup_append] at hd
        intro hm
        exact hd.2.2 _ hm _ (by simp) rfl
      have hs : dset d e.1 e.2 = d ++ [e] := by unfold dset; rw [if_neg hne]
      rw [hs, ih _ (by rw [List.append_assoc]; exact hd), List.append_assoc]; rfl
  exact gen l [] h

end

theorem mem_sadd {s : List String} {a b : String} : b ∈ sadd s a ↔ b ∈ s ∨ b = a := by
  unfold sadd
  split
  · rename_i h
    constructor
    · exact Or.inl
    · rintro (h' | rfl)
      · exact h'
      · exact h
  · simp

theorem nodup_sadd {s : List String} (h : s.Nodup) (a : String) : (sadd s a).Nodup := by
  unfold sadd
  split
  · exact h
  · rename_i hk
    rw [List.nodup_append]
    refine ⟨h, List.nodup_singleton _, ?_⟩
    intro x hx b hb
    rw [List.mem_singleton] at hb
    subst hb
    exact fun e => hk (e ▸ hx)

theorem foldl_sadd (l s : List String) : ∀ a, a ∈ l.foldl sadd s ↔ a ∈ s ∨ a ∈ l := by
  induction l generalizing s with
  | nil => simp
  | cons b l ih =>
    intro a
    rw [List.foldl_cons, ih, mem_sadd, List.mem_cons, or_assoc]

theorem nodup_foldl_sadd (l s : List String) (h : s.Nodup) : (l.foldl sadd s).Nodup := by
  induction l generalizing s with
  | nil => exact h
  | cons b l ih => exact ih _ (nodup_sadd h b)

/-! ### Reading back a file -/

theorem reloadO_eq (o : List (String × Json)) : reloadO o = o.map (fun e => (e.1, e.2.reload)) := by
  induction o with
  | nil => rfl
  | cons e o ih => obtain ⟨k, j⟩ := e; simp [reloadO, ih]

theorem reloadL_eq (l : List Json) : reloadL l = l.map Json.reload := by
  induction l with
  | nil => rfl
  | cons e o ih => simp [reloadL, ih]

theorem reload_obj (o : List (String × Json)) : (Json.obj o).reload = .obj (sortKey (·.1) (o.map (fun e => (e.1, e.2.reload)))) := by
  rw [Json.reload, reloadO_eq]

theorem reload_arr (l : List Json) : (Json.arr l).reload = .arr (l.map Json.reload) := by
  rw [Json.reload, reloadL_eq]

@[simp] theorem reload_str (t : String) : (Json.str t).reload = .str t := by rw [Json.reload] <;> simp
@[simp] theorem reload_int (n : Int) : (Json.int n).reload = .int n := by rw [Json.reload] <;> simp

theorem reload_item {o : List (String × Json)} (h : (o.map (·.1)).Nodup) (k : String) :
    (Json.obj o).reload.item k = (dget o k).map Json.reload := by
  rw [reload_obj]
  show dget _ k = _
  rw [sortKey_map (key := fun e : String × Json => e.1) (fun e : String × Json => (e.1, e.2.reload)) (fun _ => rfl),
    dget_map (fun _ j => Json.reload j) (h := fun e : String × Json => (e.1, e.2.reload)) (fun _ => rfl), dget_perm (sortKey_perm _ o) (((sortKey_perm _ o).map _).nodup_iff.2 h)]

/-- A dictionary of sets after a round trip through a file. -/
def canonSets (d : List (String × List String)) : List (String × List String) :=
  (sortKey (·.1) d).map (fun e => (e.1, (strSort e.2).foldl sadd []))

theorem decSets_reload (d : List (String × List String)) : decSets (encSets d).reload = some (canonSets d) := by
  unfold encSets decSets
  rw [reload_obj, List.map_map,
    sortKey_map (key := fun e : String × List String => e.1) (key' := fun e : String × Json => e.1) _ (fun _ => rfl)]
  show List.mapM _ _ = _
  rw [List.mapM_map]
  refine mapM_some _ _ _ (fun e _ => ?_)
  show (do let l ← (← ((Json.arr ((strSort e.2).map .str)).reload).arr?).mapM Json.text?; return (e.1, l.foldl sadd [])) = _
  rw [reload_arr]
  show (do let l ← (List.map Json.reload ((strSort e.2).map Json.str)).mapM Json.text?; return (e.1, l.foldl sadd [])) = _
  rw [List.map_map, List.mapM_map, mapM_some id _ (strSort e.2) (fun a _ => by
    show Json.text? (Json.reload (Json.str a)) = some (id a)
    simp [Json.reload, Json.text?])]
  simp

theorem dget_canonSets {d : List (String × List String)} (h : (d.map (·.1)).Nodup) (k : String) :
    dget (canonSets d) k = (dget d k).map (fun s => (strSort s).foldl sadd []) := by
  unfold canonSets
  rw [dget_map (fun _ s => (strSort s).foldl sadd []) (fun _ => rfl), dget_perm (sortKey_perm _ d) (((sortKey_perm _ d).map _).nodup_iff.2 h)]

theorem keys_canonSets (d : List (String × List String)) : ((canonSets d).map (·.1)).Perm (d.map (·.1)) := by
  unfold canonSets
  rw [List.map_map]
  exact (sortKey_perm (fun e : String × List String => e.1) d).map _

/-! ### Parameters -/

variable {rnd : Int → Int → Option Int} {intOf : String → Option Int}

/-- Parsing what was parsed changes nothing. -/
theorem parse_idem {f : Flavor} (hf : f.valid = true) {v w : PyVal} (h : f.parse rnd v = some w) : f.parse rnd w = some w := by
  by_cases ho : Ordered f
  · exact C38_keeps (C38_range hf ho h)
  · match f, hf, ho, h with
    | .boolean, _, ho, _ => exact absurd trivial ho
    | .integer mn mx step, hf, ho, _ =>
      simp only [Flavor.valid, Bool.and_eq_true, decide_eq_true_eq, beq_iff_eq] at hf
      exact absurd hf.2 ho
    | .poweroftwo mn mx, hf, ho, h =>
      have hlt : mx < mn := by simpa [Ordered] using ho
      have hc : ∀ v, clamp mn mx v = mx := by intro v; unfold clamp; simp only; (repeat' split) <;> omega
      simp only [Flavor.parse, hc, Option.bind_eq_bind, Option.bind_eq_some_iff, Option.some.injEq] at h
      obtain ⟨n, -, rfl⟩ := h
      simp [Flavor.parse, PyVal.toInt?, hc]

theorem parse_kind {f : Flavor} {v w : PyVal} (h : f.parse rnd v = some w) : (∃ b, w = .bool b) ∨ ∃ n, w = .int n := by
  match f, h with
  | .boolean, h => simp only [Flavor.parse, Option.some.injEq] at h; exact Or.inl ⟨_, h.symm⟩
  | .integer _ _ _, h =>
    simp only [Flavor.parse, Option.bind_eq_some_iff, Option.some.injEq] at h
    obtain ⟨n, -, m, -, rfl⟩ := h
    exact Or.inr ⟨_, rfl⟩
  | .poweroftwo _ _, h =>
    simp only [Flavor.parse, Option.bind_eq_bind, Option.bind_eq_some_iff, Option.some.injEq] at h
    obtain ⟨n, -, rfl⟩ := h
    exact Or.inr ⟨_, rfl⟩

/-- A parameter made by one of the constructors from a tags dictionary. -/
def Param.Made (rnd : Int → Int → Option Int) (p : Param) : Prop :=
  (p.tags.map (·.1)).Nodup ∧ ∃ v, Param.make rnd p.name p.tags p.flavor v = some p

theorem Made_iff {p : Param} : p.Made rnd ↔ (p.tags.map (·.1)).Nodup ∧ p.flavor.valid = true ∧ ∃ v, p.flavor.parse rnd v = some p.default := by
  unfold Param.Made Param.make
  constructor
  · rintro ⟨ht, v, h⟩
    by_cases hv : p.flavor.valid = true
    · rw [if_pos hv, Option.map_eq_some_iff] at h
      obtain ⟨d, hd, e⟩ := h
      refine ⟨ht, hv, v, ?_⟩
      rw [hd, ← e]
    · rw [if_neg hv] at h; exact absurd h (by simp)
  · rintro ⟨ht, hv, v, h⟩
    exact ⟨ht, v, by rw [if_pos hv, h]; rfl⟩

theorem val_roundtrip {w : PyVal} (h : (∃ b, w = .bool b) ∨ ∃ n, w = .int n) : w.encode.reload.toVal intOf = w := by
  rcases h with ⟨b, rfl⟩ | ⟨n, rfl⟩ <;> simp [PyVal.encode, Json.reload, Json.toVal]

theorem tags_roundtrip (tags : List (String × String)) :
    ((Json.arr (tags.map (fun t => .arr [.str t.1, .str t.2]))).reload.arr?.bind (fun l => l.mapM Json.pair?)) = some tags := by
  rw [reload_arr, Json.arr?, Option.bind_some, List.map_map, List.mapM_map]
  rw [mapM_some id _ tags]
  · simp
  · intro t _
    show Json.pair? (Json.reload (Json.arr [.str t.1, .str t.2])) = some t
    rw [reload_arr]; simp [reload_str, Json.pair?]

/-- **C39** (one parameter). A parameter that was encoded, written, read and decoded is the same. -/
theorem param_roundtrip {p : Param} (hp : p.Made rnd) : Param.decode rnd intOf p.encode.reload = some p := by
  obtain ⟨ht, hv, v, hd⟩ := Made_iff.1 hp
  have hval := val_roundtrip (intOf := intOf) (parse_kind hd)
  have hidem := parse_idem hv hd
  have htags := tags_roundtrip p.tags
  obtain ⟨name, tags, f, default⟩ := p
  dsimp only at ht hv hd hval hidem htags
  have hmake : Param.make rnd name tags f default = some ⟨name, tags, f, default⟩ := by
    unfold Param.make; rw [if_pos hv, hidem]; rfl
  rw [Option.bind_eq_some_iff] at htags
  obtain ⟨ts, hts, htm⟩ := htags
  cases f with
  | boolean =>
    have hn : (([("name", Json.str name), ("flavor", .str "boolean"), ("tags", .arr (tags.map (fun t => .arr [.str t.1, .str t.2]))),
      ("default", default.encode)] : List (String × Json)).map (·.1)).Nodup := by
      simp
    unfold Param.decode Param.encode
    simp only [List.cons_append, List.nil_append, reload_item hn]
    simp [dget_cons, Json.text?, hts, htm, dictOf_nodup ht, hval, hmake]
  | integer mn mx step =>
    have hn : (([("name", Json.str name), ("flavor", .str "integer"), ("tags", .arr (tags.map (fun t => .arr [.str t.1, .str t.2]))),
      ("minimum", .int mn), ("maximum", .int mx), ("step", .int step),
      ("default", default.encode)] : List (String × Json)).map (·.1)).Nodup := by
      simp
    unfold Param.decode Param.encode
    simp only [List.cons_append, List.nil_append, reload_item hn]
    simp [dget_cons, Json.text?, Json.int?, hts, htm, dictOf_nodup ht, hval, hmake]
  | poweroftwo mn mx =>
    have hn : (([("name", Json.str name), ("flavor", .str "poweroftwo"), ("tags", .arr (tags.map (fun t => .arr [.str t.1, .str t.2]))),
      ("minimum", .int mn), ("maximum", .int mx),
      ("default", default.encode)] : List (String × Json)).map (·.1)).Nodup := by
      simp
    unfold Param.decode Param.encode
    simp only [List.cons_append, List.nil_append, reload_item hn]
    simp [dget_cons, Json.text?, Json.int?, hts, htm, dictOf_nodup ht, hval, hmake]

/-- A parameter space after a round trip. -/
def Space.canon (s : Space) : Space :=
  ⟨canonSets s.fwd, canonSets s.bwd, canonSets s.fmet, canonSets s.bmet, sortKey (·.1) s.params⟩

theorem space_roundtrip {s : Space} (hp : ∀ e ∈ s.params, e.2.Made rnd) : Space.decode rnd intOf s.encode.reload = some s.canon := by
  have hn : (([("forward_dependencies", encSets s.fwd), ("backward_dependencies", encSets s.bwd), ("forward_metrics", encSets s.fmet),
    ("backward_metrics", encSets s.bmet), ("parameters", .obj (s.params.map (fun e => (e.1, e.2.encode))))] : List (String × Json)).map (·.1)).Nodup := by
    simp
  unfold Space.decode Space.encode
  simp only [reload_item hn]
  have hpar : ((Json.obj (s.params.map (fun e => (e.1, e.2.encode)))).reload.obj?.bind (fun o =>
      o.mapM (fun e => do return (e.1, ← Param.decode rnd intOf e.2)))) = some (sortKey (·.1) s.params) := by
    rw [reload_obj, Json.obj?, Option.bind_some, List.map_map,
      sortKey_map (key := fun e : String × Param => e.1) (key' := fun e : String × Json => e.1) _ (fun _ => rfl), List.mapM_map]
    rw [mapM_some id]
    · simp
    · intro e he
      show (do return (e.1, ← Param.decode rnd intOf e.2.encode.reload)) = some e
      rw [param_roundtrip (hp e ((sortKey_perm _ s.params).mem_iff.1 he))]; rfl
  rw [Option.bind_eq_some_iff] at hpar
  obtain ⟨o, ho, hm⟩ := hpar
  simp [dget_cons, decSets_reload, ho, Space.canon, Option.bind_eq_some_iff]
  simpa [Option.bind_eq_some_iff] using hm

end Repro

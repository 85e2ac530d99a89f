import Verif.PropsTuner
import Verif.PropsTune

/-!
# C78: tuning does not change results
-/
namespace Repro
open Fmt

variable {rnd : Int → Int → Option Int} {F : Fmt}

/-- A collected parameter space is usable if its parameters come from the constructors, with bounds in order. -/
theorem SpaceOK.of_describes {s : Space} {ts : List (String × Target)} (hd : Describes s ts)
    (hm : ∀ u ∈ ts, ∀ p ∈ u.2.parameters, (∃ n tg f v, Param.make rnd n tg f v = some p) ∧ Ordered p.flavor) : SpaceOK s := by
  intro n p hp
  obtain ⟨u, hu, hpu, e⟩ := (hd.params n p).1 hp
  obtain ⟨⟨n', tg, f, v, h⟩, ho⟩ := hm u hu p hpu
  refine ⟨e, ?_, ho, ?_⟩ <;> unfold Param.make at h <;> by_cases hv : f.valid = true
  · rw [if_pos hv, Option.map_eq_some_iff] at h
    obtain ⟨d, -, rfl⟩ := h
    exact hv
  · rw [if_neg hv] at h; exact absurd h (by simp)
  · rw [if_pos hv, Option.map_eq_some_iff] at h
    obtain ⟨d, hd, rfl⟩ := h
    exact C38_range hv ho hd
  · rw [if_neg hv] at h; exact absurd h (by simp)

/-- Every state of the file, outside of a write, in which a session of the tuner leaves an existing arguments file can be used to generate the code of a declared target. -/
theorem session_generates {s : Space} {ts : List (String × Target)} (hd : Describes s ts) (hs : SpaceOK s)
    (hdecl : ∀ u ∈ ts, ∀ n ∈ u.2.arguments, ∃ w ∈ ts, ∃ p ∈ w.2.parameters, p.name = n) {vec : String} {phs : List Phase} {f : FileSt} (hf : FileOK s f)
    (hp : ∀ ph ∈ phs, ph.In s vec) {a : List (String × PyVal)} (ha : FileSt.ok a ∈ (session s f phs).1) {u : String × Target} (hu : u ∈ ts) :
    ∃ D, generateFrom rnd s (.ok a) u.2 = some D := by
  obtain ⟨a0, h0, _, h2, _⟩ := C78_every_moment hs hd.nodup hf hp
  obtain ⟨i, hi⟩ := List.mem_iff_getElem?.1 ha
  have hok : ArgsOK s a := by
    rcases h2 i _ hi with ⟨_, e⟩ | h | ⟨a', e, h, _⟩
    · rw [← e] at hf; exact hf
    · exact absurd h (by simp)
    · cases e; exact h
  obtain ⟨D, hD, _⟩ := C78_generate (rnd := rnd) hok (t := u.2) (by
    intro n hn
    obtain ⟨w, hw, p, hp, e⟩ := hdecl u hu n hn
    rw [(hd.params n p).2 ⟨w, hw, hp, e⟩]; rfl)
  exact ⟨D, hD⟩

/-- **C78** (results). Tune as you like, on two machines with different vectorizations, from any usable states of the file, stop at any moments outside of a write, and build with the
two files: both builds succeed, and the vector sum returns the same bits. -/
theorem C78_same_results [F.OK] {s : Space} {ts : List (String × Target)} (h : Describes s ts) (hs : SpaceOK s)
    (hdecl : ∀ u ∈ ts, ∀ n ∈ u.2.arguments, ∃ w ∈ ts, ∃ p ∈ w.2.parameters, p.name = n)
    {base defaultFold : Nat} (hb : base = 32 ∨ base = 64)
    {name amax block var : String} {metrics : List String} {lo hi de : Int} {td ta tb : String × Target}
    (hd : depositTarget rnd name base base defaultFold = some td.2) (ha : amaxTarget rnd amax base base = some ta.2)
    (hbl : blockSize rnd block var lo hi de metrics = some tb.2) (hlo : 1 ≤ lo) (hlohi : lo ≤ hi) (hhi : hi ≤ F.endurance)
    (hdm : td ∈ ts) (ham : ta ∈ ts) (hbm : tb ∈ ts)
    {vec vec' : String} {phs phs' : List Phase} {f f' : FileSt} (hf : FileOK s f) (hf' : FileOK s f') (hp : ∀ ph ∈ phs, ph.In s vec) (hp' : ∀ ph ∈ phs', ph.In s vec')
    {a a' : List (String × PyVal)} (hm : FileSt.ok a ∈ (session s f phs).1) (hm' : FileSt.ok a' ∈ (session s f' phs').1)
    {v v' : VecT} (hv : v ∈ vecs base) (hv' : v' ∈ vecs base) {fold : Nat} (hfold : 2 ≤ fold) {n : Nat} {X : Int → Flt} {incX : Int}
    (hx : ∀ i : Nat, i < n → F.Finite (X (i * incX))) (hN : n ≤ F.capacity) :
    ∃ D A B D' A' B' T T', generateFrom rnd s (.ok a) td.2 = some D ∧ generateFrom rnd s (.ok a) ta.2 = some A ∧ generateFrom rnd s (.ok a) tb.2 = some B ∧
      generateFrom rnd s (.ok a') td.2 = some D' ∧ generateFrom rnd s (.ok a') ta.2 = some A' ∧ generateFrom rnd s (.ok a') tb.2 = some B' ∧
      tuneOf name amax var block base v fold D A B = some T ∧ tuneOf name amax var block base v' fold D' A' B' = some T' ∧
      F.rdsum T fold n X incX = F.rdsum T' fold n X incX := by
  obtain ⟨D, hD⟩ := session_generates (rnd := rnd) h hs hdecl hf hp hm hdm
  obtain ⟨A, hA⟩ := session_generates (rnd := rnd) h hs hdecl hf hp hm ham
  obtain ⟨B, hB⟩ := session_generates (rnd := rnd) h hs hdecl hf hp hm hbm
  obtain ⟨D', hD'⟩ := session_generates (rnd := rnd) h hs hdecl hf' hp' hm' hdm
  obtain ⟨A', hA'⟩ := session_generates (rnd := rnd) h hs hdecl hf' hp' hm' ham
  obtain ⟨B', hB'⟩ := session_generates (rnd := rnd) h hs hdecl hf' hp' hm' hbm
  obtain ⟨T, T', h1, h2, h3⟩ := C38_same_results (F := F) h hb hd ha hbl hlo hlohi hhi hdm ham hbm hD hA hB hD' hA' hB' hv hv' hfold hx hN
  exact ⟨D, A, B, D', A', B', T, T', hD, hA, hB, hD', hA', hB', h1, h2, h3⟩

/-! ### A concrete case -/

/-- The whole chain: collect the three targets of the vector sum, tune the block size with the benchmark from a missing file, stop after the trial or at the end, generate, and read the tuning. -/
def exTuned (stop : Nat) : Option Tune := do
  let ts ← exTargets
  let j ← collect exRnd (fun _ => none) ts
  let s ← Space.decode exRnd (fun _ => none) (← j)
  let q := session s .missing [⟨["bench_rdsum_fold_3"], [[some [("dmdsum_block_size_N_block_MAX", .int 64)]]], [[("dmdsum_block_size_N_block_MAX", .int 512)]]⟩]
  let f ← q.1[stop]?
  let d ← ts.mapM (fun t => generateFrom exRnd s f t.2)
  tuneOf "ddepositSum" "damax" "N_block_MAX" "dmdsum" 64 ⟨"AVX", 256, true⟩ 3 (d.getD 1 []) (d.getD 2 []) (d.getD 0 [])

example : exTuned 2 = some ⟨64, 4, 4, 1, 4, true⟩ ∧ exTuned 4 = some ⟨512, 4, 4, 1, 4, true⟩ ∧ exTuned 3 = none := by decide +kernel

/-- The search is given the block size, between 32 and 2048. -/
example : ((exTargets.bind fun ts => collect exRnd (fun _ => none) ts).bind fun j => (j.bind fun j => Space.decode exRnd (fun _ => none) j)).bind
    (fun s => manipulator s "AVX" "bench_rdsum_fold_3") = some [("dmdsum_block_size_N_block_MAX", .pow2 32 2048)] := by decide +kernel

/-- All arguments of the three targets are declared. -/
example : exTargets.map (fun ts => decide (∀ u ∈ ts, ∀ n ∈ u.2.arguments, ∃ w ∈ ts, ∃ p ∈ w.2.parameters, p.name = n)) = some true := by decide +kernel

end Repro

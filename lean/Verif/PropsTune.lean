import Verif.TuneParams
import Verif.PropsVec
import Verif.GemmLemmas
/-!
# C38: every build that the generator accepts is a legal one
-/
namespace Repro

variable {rnd : Int → Int → Option Int} {intOf : String → Option Int}

/-- The argument of a target that is declared as `p` has a legal value of `p`. -/
theorem C38_declared {s : Space} {ts : List (String × Target)} (h : Describes s ts)
    {u : String × Target} (hu : u ∈ ts) {p : Param} (hp : p ∈ u.2.parameters) (hv : p.flavor.valid = true) {f : Flavor} (hf : p.flavor = f)
    (ho : Ordered f) {a : String} (hn : p.name = a)
    {t : Target} {args d : List (String × PyVal)} (hd : t.setArguments rnd args s = some d) (ha : a ∈ t.arguments) :
    ∃ v, dget d a = some v ∧ Legal f v := by
  subst hf hn
  obtain ⟨h1, h2⟩ := (setArguments_spec t.arguments [] d hd).1 p.name ha
  obtain ⟨w, hw⟩ := Option.isSome_iff_exists.1 h2
  have hw' := hw
  unfold Space.getValue at hw
  simp only [Option.bind_eq_bind, Option.bind_eq_some_iff] at hw
  obtain ⟨v, -, q, hq, hqv⟩ := hw
  have : q = p := by
    have e := (h.params p.name p).2 ⟨u, hu, hp, rfl⟩
    rw [hq, Option.some.injEq] at e; exact e
  subst this
  exact ⟨w, by rw [h1, hw'], C38_range hv ho hqv⟩

theorem make_some {n : String} {tg : List (String × String)} {f : Flavor} {v : PyVal} {p : Param} (h : Param.make rnd n tg f v = some p) :
    p.name = n ∧ p.flavor = f ∧ f.valid = true := by
  unfold Param.make at h
  by_cases hv : f.valid = true
  · rw [if_pos hv, Option.map_eq_some_iff] at h
    obtain ⟨d, -, rfl⟩ := h
    exact ⟨rfl, rfl, hv⟩
  · rw [if_neg hv] at h; exact absurd h (by simp)

theorem makeAll_mem {ds : List Decl} : ∀ {ps : List Param}, makeAll rnd ds = some ps → ∀ d ∈ ds, ∃ p ∈ ps, p.name = d.name ∧ p.flavor = d.flavor ∧
    p.flavor.valid = true := by
  unfold makeAll
  induction ds with
  | nil => intro _ _ d hd; exact absurd hd (by simp)
  | cons e ds ih =>
    intro ps h d hd
    rw [List.mapM_cons] at h
    simp only [Option.bind_eq_bind, Option.bind_eq_some_iff] at h
    obtain ⟨q, hq, qs, hqs, hps⟩ := h
    have hps : q :: qs = ps := by simpa using hps
    subst hps
    rcases List.mem_cons.1 hd with rfl | hd
    · obtain ⟨h1, h2, h3⟩ := make_some hq
      exact ⟨q, List.mem_cons_self, h1, h2, by rw [h2]; exact h3⟩
    · obtain ⟨p, hp, h'⟩ := ih hqs d hd
      exact ⟨p, List.mem_cons_of_mem _ hp, h'⟩

theorem argInt_of {d : List (String × PyVal)} {a : String} {n : Int} (h : dget d a = some (.int n)) : argInt d a = some n.toNat := by
  unfold argInt; rw [h]; rfl

theorem size_pow {bits base typeBits : Nat} {v : VecT} (hb : base = 32 ∨ base = 64) (ht : typeBits = base ∨ typeBits = 2 * base)
    (hv : v ∈ vecs base) (_ : bits = v.bits) : (∃ a, v.size typeBits = 2 ^ a) ∧ (v.simd = false → v.size typeBits = 1) := by
  unfold vecs at hv
  simp only [List.mem_cons, List.not_mem_nil, or_false] at hv
  rcases hb with rfl | rfl <;> rcases ht with rfl | rfl <;> rcases hv with rfl | rfl | rfl <;>
    first
      | exact ⟨⟨0, rfl⟩, by decide⟩
      | exact ⟨⟨1, rfl⟩, by decide⟩
      | exact ⟨⟨2, rfl⟩, by decide⟩
      | exact ⟨⟨3, rfl⟩, by decide⟩

variable {F : Fmt}

/-- **C38** (builds). Whatever the arguments file contains: if the generator accepts it for the three targets of a vector
routine (its deposit loop, its maximum, its block size between `lo` and `hi`), then the code it generates, for every vectorization and every fold,
has a legal tuning: the block size is between `lo` and `hi`, the widths are multiples of the register. `s` is any parameter space that
was collected from any list of targets containing these three. -/
theorem C38_build {s : Space} {ts : List (String × Target)} (h : Describes s ts)
    {base typeBits defaultFold : Nat} (hb : base = 32 ∨ base = 64) (ht : typeBits = base ∨ typeBits = 2 * base)
    {name amax block var : String} {metrics : List String} {lo hi de : Int} {td ta tb : String × Target}
    (hd : depositTarget rnd name base typeBits defaultFold = some td.2) (ha : amaxTarget rnd amax base typeBits = some ta.2)
    (hbl : blockSize rnd block var lo hi de metrics = some tb.2) (hlo : 1 ≤ lo) (hlohi : lo ≤ hi) (hhi : hi ≤ F.endurance)
    (hdm : td ∈ ts) (ham : ta ∈ ts) (hbm : tb ∈ ts) {args D A B : List (String × PyVal)}
    (hD : td.2.setArguments rnd args s = some D) (hA : ta.2.setArguments rnd args s = some A) (hB : tb.2.setArguments rnd args s = some B)
    {v : VecT} (hv : v ∈ vecs base) (fold : Nat) :
    ∃ T, tuneOf name amax var block typeBits v fold D A B = some T ∧ T.OK F ∧ T.nb ≤ hi := by
  obtain ⟨⟨sz, hsz⟩, hsisd⟩ := size_pow hb ht hv rfl
  -- the fold whose parameters are used
  have hi' : tunedFold D name v fold ∈ tunedFolds := by
    unfold tunedFold
    split
    · rename_i hc
      unfold tunedFolds
      rw [List.mem_filter, List.mem_range]
      exact ⟨by omega, by simp; omega⟩
    · decide
  generalize hie : tunedFold D name v fold = i at hi'
  unfold depositTarget at hd
  rw [Option.map_eq_some_iff] at hd
  obtain ⟨pd, hpd, etd⟩ := hd
  unfold amaxTarget at ha
  rw [Option.map_eq_some_iff] at ha
  obtain ⟨pa, hpa, eta⟩ := ha
  -- pipe width
  obtain ⟨p1, hp1, hn1, hf1, hv1⟩ := makeAll_mem hpd ⟨pipeName name v i, [("vectorization", v.name)], .poweroftwo (v.size typeBits) (v.size typeBits * 8), .int (v.size typeBits)⟩ (by
    unfold depositDecls
    rw [List.mem_flatMap]
    refine ⟨i, hi', ?_⟩
    rw [List.mem_flatMap]
    exact ⟨v, hv, List.mem_append_right _ (by simp)⟩)
  have hd1 : p1 ∈ td.2.parameters := by rw [← etd]; exact hp1
  obtain ⟨w1, hw1, e1, he1, hlo1, hhi1⟩ := C38_declared h hdm hd1 hv1 hf1 (by show ((v.size typeBits : Nat) : Int) ≤ (v.size typeBits : Nat) * 8; omega) hn1 hD (by
    rw [← etd]
    unfold depositArgs
    rw [List.mem_flatMap]
    refine ⟨i, hi', ?_⟩
    rw [List.mem_flatMap]
    exact ⟨v, hv, List.mem_append_right _ (by simp)⟩)
  -- unroll width
  obtain ⟨p2, hp2, hn2, hf2, hv2⟩ := makeAll_mem hpd ⟨unrollName name v i, [("vectorization", v.name)], .integer 1 8 1, .int 1⟩ (by
    unfold depositDecls
    rw [List.mem_flatMap]
    refine ⟨i, hi', ?_⟩
    rw [List.mem_flatMap]
    exact ⟨v, hv, List.mem_append_right _ (by simp)⟩)
  have hd2 : p2 ∈ td.2.parameters := by rw [← etd]; exact hp2
  obtain ⟨w2, hw2, e2, he2, hlo2, hhi2, -⟩ := C38_declared h hdm hd2 hv2 hf2 (by show (1 : Int) ≤ 8; omega) hn2 hD (by
    rw [← etd]
    unfold depositArgs
    rw [List.mem_flatMap]
    refine ⟨i, hi', ?_⟩
    rw [List.mem_flatMap]
    exact ⟨v, hv, List.mem_append_right _ (by simp)⟩)
  -- width of the maximum
  obtain ⟨p3, hp3, hn3, hf3, hv3⟩ := makeAll_mem hpa ⟨amaxName amax v, [("vectorization", v.name)],
    .integer (v.size typeBits) (v.size typeBits * 8) (v.size typeBits), .int (v.size typeBits)⟩ (by
    unfold amaxDecls
    exact List.mem_map.2 ⟨v, hv, rfl⟩)
  have hd3 : p3 ∈ ta.2.parameters := by rw [← eta]; exact hp3
  obtain ⟨w3, hw3, e3, he3, hlo3, hhi3, hmod3⟩ := C38_declared h ham hd3 hv3 hf3 (by show ((v.size typeBits : Nat) : Int) ≤ (v.size typeBits : Nat) * 8; omega) hn3 hA (by
    rw [← eta]
    exact List.mem_map.2 ⟨v, hv, rfl⟩)
  -- block size
  unfold blockSize at hbl
  simp only [Option.bind_eq_bind, Option.bind_eq_some_iff] at hbl
  obtain ⟨p4, hp4, etb⟩ := hbl
  have etb : (⟨[blockName block var], [(blockName block var, metrics)], [p4]⟩ : Target) = tb.2 := by simpa using etb
  obtain ⟨hn4, hf4, hv4⟩ := make_some hp4
  have hd4 : p4 ∈ tb.2.parameters := by rw [← etb]; simp
  obtain ⟨w4, hw4, e4, he4, hlo4, hhi4⟩ := C38_declared h hbm hd4 (by rw [hf4]; exact hv4) hf4 hlohi hn4 hB (by
    rw [← etb]; simp)
  subst he1 he2 he3 he4
  have hpos : 0 < v.size typeBits := by rw [hsz]; exact Nat.pow_pos (by omega)
  have hcast : ∀ e : Nat, ((2 : Int) ^ e).toNat = 2 ^ e := by
    intro e
    have : ((2 : Int) ^ e) = ((2 ^ e : Nat) : Int) := by push_cast; rfl
    rw [this, Int.toNat_natCast]
  refine ⟨⟨((2 : Int) ^ e4).toNat, v.size typeBits, ((2 : Int) ^ e1).toNat, e2.toNat, e3.toNat, v.simd⟩, ?_, ⟨?_, ?_, ⟨sz, hsz⟩, ⟨e1, hcast e1⟩, ?_, ?_, ?_, ?_, hsisd⟩, ?_⟩
  · unfold tuneOf
    simp only [hie, argInt_of hw1, argInt_of hw2, argInt_of hw3, argInt_of hw4]
    rfl
  · show 1 ≤ ((2 : Int) ^ e4).toNat; omega
  · show ((2 : Int) ^ e4).toNat ≤ _; omega
  · show v.size typeBits ≤ ((2 : Int) ^ e1).toNat; omega
  · show 1 ≤ e2.toNat; omega
  · show 1 ≤ e3.toNat; omega
  · show v.size typeBits ∣ e3.toNat
    have : ((v.size typeBits : Nat) : Int) ∣ e3 := Int.dvd_of_emod_eq_zero hmod3
    have h0 : 0 ≤ e3 := by omega
    rw [← Int.toNat_of_nonneg h0] at this
    exact_mod_cast this
  · show ((((2 : Int) ^ e4).toNat : Nat) : Int) ≤ hi; omega

/-- **C38** (equal results). Two builds of the vector sum from two arbitrary arguments files, for any two vectorizations, compute the same
bits. -/
theorem C38_same_results [F.OK] {s : Space} {ts : List (String × Target)} (h : Describes s ts)
    {base defaultFold : Nat} (hb : base = 32 ∨ base = 64)
    {name amax block var : String} {metrics : List String} {lo hi de : Int} {td ta tb : String × Target}
    (hd : depositTarget rnd name base base defaultFold = some td.2) (ha : amaxTarget rnd amax base base = some ta.2)
    (hbl : blockSize rnd block var lo hi de metrics = some tb.2) (hlo : 1 ≤ lo) (hlohi : lo ≤ hi) (hhi : hi ≤ F.endurance)
    (hdm : td ∈ ts) (ham : ta ∈ ts) (hbm : tb ∈ ts) {args D A B args' D' A' B' : List (String × PyVal)}
    (hD : td.2.setArguments rnd args s = some D) (hA : ta.2.setArguments rnd args s = some A) (hB : tb.2.setArguments rnd args s = some B)
    (hD' : td.2.setArguments rnd args' s = some D') (hA' : ta.2.setArguments rnd args' s = some A') (hB' : tb.2.setArguments rnd args' s = some B')
    {v v' : VecT} (hv : v ∈ vecs base) (hv' : v' ∈ vecs base) {fold : Nat} (hfold : 2 ≤ fold) {n : Nat} {X : Int → Flt} {incX : Int}
    (hx : ∀ i : Nat, i < n → F.Finite (X (i * incX))) (hN : n ≤ F.capacity) :
    ∃ T T', tuneOf name amax var block base v fold D A B = some T ∧ tuneOf name amax var block base v' fold D' A' B' = some T' ∧
      F.rdsum T fold n X incX = F.rdsum T' fold n X incX := by
  obtain ⟨T, hT, hTok, -⟩ := C38_build (F := F) h hb (Or.inl rfl) hd ha hbl hlo hlohi hhi hdm ham hbm hD hA hB hv fold
  obtain ⟨T', hT', hTok', -⟩ := C38_build (F := F) h hb (Or.inl rfl) hd ha hbl hlo hlohi hhi hdm ham hbm hD' hA' hB' hv' fold
  refine ⟨T, T', hT, hT', ?_⟩
  have := C04_independent (F := F) hTok hTok' hfold (h := .zero) trivial (X := X) (X' := X) (incX := incX) (incX' := incX) (n := n) (List.Perm.refl _)
    (fun _ => trivial) hx (by simpa [Hist.nums] using hN)
  unfold Fmt.rdsum
  exact congrArg _ this

/-- **C38** (blocks of the matrix products). Whatever the arguments file and the (nonzero) cache size: the five block sizes accepted by the
generator are powers of two, and a row block is never larger than its tile. -/
theorem C38_gemv {s : Space} {ts : List (String × Target)} (h : Describes s ts) {name : String} {cache byteSize : Nat}
    {tg : List Target} (hg : gemvBlocks rnd name cache byteSize = some tg) {file : String} (hts : ∀ t ∈ tg, (file, t) ∈ ts)
    {args : List (String × PyVal)} {d : String → List (String × PyVal)}
    (hd : ∀ var, ∀ t ∈ tg, t.arguments = [blockName name var] → t.setArguments rnd args s = some (d var)) :
    ∃ b, gemvB name d = some b ∧ b.OK := by
  unfold gemvBlocks at hg
  simp only [List.mapM_cons, List.mapM_nil, Option.bind_eq_bind, Option.bind_eq_some_iff] at hg
  generalize hxy : (((2 ^ (bitLength cache - 1) / byteSize : Nat) : Nat) : Int) = xy at hg
  obtain ⟨t1, h1, _, ⟨t2, h2, _, ⟨t3, h3, _, ⟨t4, h4, _, ⟨t5, h5, _, ⟨h6, e5⟩⟩, e4⟩, e3⟩, e2⟩, e1⟩ := hg
  have key : ∀ {var : String} {mn mx : Int} {t : Target}, blockSize rnd name var mn mx mx [] = some t → t ∈ tg → mn ≤ mx →
      isPow2 mx = true ∧ ∃ e : Nat, argInt (d var) (blockName name var) = some (2 ^ e) ∧ mn ≤ 2 ^ e ∧ (2 : Int) ^ e ≤ mx := by
    intro var mn mx t ht htm hle
    unfold blockSize at ht
    simp only [Option.bind_eq_bind, Option.bind_eq_some_iff] at ht
    obtain ⟨p, hp, et⟩ := ht
    have et : (⟨[blockName name var], [(blockName name var, [])], [p]⟩ : Target) = t := by simpa using et
    obtain ⟨hn, hf, hv⟩ := make_some hp
    obtain ⟨w, hw, e, rfl, l1, l2⟩ := C38_declared (rnd := rnd) h (hts t htm) (p := p) (by rw [← et]; simp) (by rw [hf]; exact hv) hf hle hn
      (hd var t htm (by rw [← et])) (by rw [← et]; simp)
    refine ⟨?_, e, ?_, l1, l2⟩
    · simp only [Flavor.valid, Bool.and_eq_true] at hv; exact hv.2
    · rw [argInt_of hw]
      have : ((2 : Int) ^ e) = ((2 ^ e : Nat) : Int) := by push_cast; rfl
      rw [this, Int.toNat_natCast]
  have hmem : t1 ∈ tg ∧ t2 ∈ tg ∧ t3 ∈ tg ∧ t4 ∈ tg ∧ t5 ∈ tg := by
    simp only [Option.pure_def, Option.some.injEq] at h6 e1 e2 e3 e4 e5
    subst h6 e5 e4 e3 e2 e1
    simp
  obtain ⟨m1, m2, m3, m4, m5⟩ := hmem
  have hxy1 : 1 ≤ xy ∧ max (xy / 256) 1 ≤ xy := by
    have h1 : isPow2 xy = true := by
      unfold blockSize at h2
      simp only [Option.bind_eq_bind, Option.bind_eq_some_iff] at h2
      obtain ⟨p, hp, -⟩ := h2
      have := (make_some hp).2.2
      simp only [Flavor.valid, Bool.and_eq_true] at this; exact this.2
    obtain ⟨e, he⟩ := isPow2_iff.1 h1
    have : (0 : Int) < 2 ^ e := by positivity
    omega
  obtain ⟨-, a1, A1, l1, u1⟩ := key h1 m1 (by omega)
  obtain ⟨-, a2, A2, l2, u2⟩ := key h2 m2 hxy1.2
  obtain ⟨-, a3, A3, l3, u3⟩ := key h3 m3 (by omega)
  obtain ⟨-, a4, A4, l4, u4⟩ := key h4 m4 hxy1.2
  obtain ⟨-, a5, A5, l5, u5⟩ := key h5 m5 (by omega)
  refine ⟨⟨2 ^ a1, 2 ^ a2, 2 ^ a3, 2 ^ a4, 2 ^ a5⟩, ?_, ⟨⟨_, rfl⟩, ⟨_, rfl⟩, ⟨_, rfl⟩, ⟨_, rfl⟩, ⟨_, rfl⟩, ?_, ?_⟩⟩
  · unfold gemvB
    simp only [A1, A2, A3, A4, A5]
    rfl
  · show 2 ^ a1 ≤ 2 ^ a2
    have : (2 : Int) ^ a1 ≤ 2 ^ a2 := le_trans u1 l2
    exact_mod_cast this
  · show 2 ^ a3 ≤ 2 ^ a4
    have : (2 : Int) ^ a3 ≤ 2 ^ a4 := le_trans u3 l4
    exact_mod_cast this

/-! ### A concrete build of the double precision sum -/

/-- `round` is never needed for the values below. -/
def exRnd : Int → Int → Option Int := fun _ _ => none

/-- The three targets of `src/binnedBLAS/dmdsum.ccog` and `src/binnedBLAS/damax.ccog`. -/
def exTargets : Option (List (String × Target)) := do
  return [("src/binnedBLAS/dmdsum.ccog", ← blockSize exRnd "dmdsum" "N_block_MAX" 32 2048 2048 ["bench_rdsum_fold_3"]),
    ("src/binnedBLAS/dmdsum.ccog", ← depositTarget exRnd "ddepositSum" 64 64 3), ("src/binnedBLAS/damax.ccog", ← amaxTarget exRnd "damax" 64 64)]

/-- An arguments file with out of range and odd values for some arguments, and the declared defaults for all others. -/
def exArgs (s : Space) : List (String × PyVal) :=
  dset (dset (dset (dset s.defaults "dmdsum_block_size_N_block_MAX" (.int 100000)) "ddepositSum_max_pipe_width_AVX_fold_3" (.int 9))
    "ddepositSum_expand_AVX_fold_3" (.other (some 1) true)) "damax_max_unroll_width_AVX" (.int 1000)

/-- The whole chain: collect, read, accept the arguments, tune. -/
def exTune : Option Tune := do
  let ts ← exTargets
  let j ← collect exRnd (fun _ => none) ts
  let s ← Space.decode exRnd (fun _ => none) (← j)
  let d ← ts.mapM (fun t => t.2.setArguments exRnd (exArgs s) s)
  tuneOf "ddepositSum" "damax" "N_block_MAX" "dmdsum" 64 ⟨"AVX", 256, true⟩ 3 (d.getD 1 []) (d.getD 2 []) (d.getD 0 [])

example : exTune = some ⟨2048, 4, 16, 1, 32, true⟩ := by decide +kernel
example : (exTargets.map parNames).map (fun l => decide l.Nodup) = some true := by decide +kernel
example : f64.endurance = 2048 := by decide
example : ((gemvBlocks exRnd "dbdgemv" 300000 8).map (fun l => l.map (fun t => t.parameters.map (·.flavor)))) =
    some [[.poweroftwo 1 128], [.poweroftwo 128 32768], [.poweroftwo 1 128], [.poweroftwo 128 32768], [.poweroftwo 1 32]] := by decide +kernel

end Repro

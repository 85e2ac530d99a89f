import Verif.GenConsol
import Verif.PropsVec
import Verif.ZSsq
import Verif.FtzLemmas
/-!
# C62: executing the statements the generator writes has the effect of the lane model
-/

namespace Repro
open Fmt
variable {F : Fmt}

theorem zip_trace_map {α β : Type} (T : Tune) (e : Nat) (f : β → Nat → Flt) (g : α → β) (z : α) (es : List α) :
    T.traceZ e f (g z) (es.map g) = T.traceZ e (fun a => f (g a)) z es := by
  have hg : ∀ i, (es.map g).getD i (g z) = g (es.getD i z) := by
    intro i
    rw [List.getD_eq_getElem?_getD, List.getD_eq_getElem?_getD, List.getElem?_map]
    cases es[i]? <;> rfl
  have hl : ∀ c, loadZ T.ts e f (g z) (es.map g) c = loadZ T.ts e (fun a => f (g a)) z es c := by
    intro c
    unfold loadZ
    dsimp only
    congr 1
    funext h
    split
    · rw [List.map_map, List.map_map]
      apply List.map_congr_left
      intro l _
      simp only [Function.comp_apply]
      split
      · rw [hg]
      · rfl
    · rw [List.map_map, List.map_map]
      apply List.map_congr_left
      intro l _
      simp only [Function.comp_apply, hg]
  unfold Tune.traceZ Tune.dealZ
  simp only [hl, List.length_map]

theorem kernelZ_map {α β : Type} (T : Tune) (mode : Mode) (e : Nat) (f : β → Nat → Flt) (g : α → β) (z : α) (es : List α) (pri : List Flt) :
    F.kernelZ T mode e f (g z) (es.map g) pri = F.kernelZ T mode e (fun a => f (g a)) z es pri := by
  unfold kernelZ; rw [zip_trace_map]

/-- The real deal is the case of one number per element. -/
theorem deal_dealZ {α : Type} {T : Tune} (f : α → Flt) (z : α) (hz : f z = zero) (es : List α) {c : Chunk} (hin : c.off + c.count ≤ es.length)
    (hg : c.part = false → max (c.count / T.pipe) 1 * min c.count T.pipe = c.count) :
    T.deal (es.map f) c = T.dealZ 1 (fun a _ => f a) z es c := by
  have hn : ∀ i, i < es.length → nth (es.map f) i = f (es.getD i z) := by
    intro i hi
    unfold nth
    rw [List.getD_eq_getElem?_getD, List.getD_eq_getElem?_getD, List.getElem?_map, List.getElem?_eq_getElem hi]; rfl
  have hld : loadZ T.ts 1 (fun a _ => f a) z es c = (loadE T.ts z es c).map f := by
    rw [loadZ_eq]; simp
  unfold Tune.deal Tune.dealZ
  dsimp only
  rw [hld]
  unfold loadE
  by_cases hp : c.part = true
  · simp only [if_pos hp, List.range_one, List.flatMap_cons, List.flatMap_nil, List.append_nil, Nat.one_mul, Nat.zero_mul, Nat.zero_add]
    apply List.map_congr_left
    intro l hl
    have hl := List.mem_range.mp hl
    rw [List.map_map]
    unfold nth
    rw [getD_rm _ _ hl]
    by_cases h : l < c.count
    · rw [if_pos h]
      have := hn (c.off + l) (by omega)
      unfold nth at this
      rw [this]; simp only [Function.comp_apply, if_pos h]
    · rw [if_neg h]; simp only [Function.comp_apply, if_neg h, hz]
  · have hg := hg (by simpa using hp)
    simp only [if_neg hp, Nat.one_mul]
    apply List.flatMap_congr
    intro g hg'
    have hg' := List.mem_range.mp hg'
    apply List.map_congr_left
    intro l hl
    have hl := List.mem_range.mp hl
    have hlt : g * min c.count T.pipe + l < c.count := by
      have : (g + 1) * min c.count T.pipe ≤ max (c.count / T.pipe) 1 * min c.count T.pipe := Nat.mul_le_mul_right _ hg'
      rw [Nat.succ_mul] at this; omega
    rw [hn _ (by omega), List.map_map]
    unfold nth
    rw [getD_rm _ _ hlt]; rfl

theorem trace_traceZ {α : Type} {T : Tune} (hT : T.OK F) (f : α → Flt) (z : α) (hz : f z = zero) (es : List α) :
    T.trace (es.map f) = T.traceZ 1 (fun a _ => f a) z es := by
  unfold Tune.trace Tune.traceZ
  rw [List.length_map]
  apply List.flatMap_congr
  intro c hc
  obtain ⟨a, ha⟩ := hT.ts
  obtain ⟨b, hb⟩ := hT.pipe
  have hab : T.ts ∣ T.pipe := by
    rw [ha, hb]; apply Nat.pow_dvd_pow
    have := hT.tp; rw [ha, hb] at this
    exact (Nat.pow_le_pow_iff_right (by omega : 1 < 2)).1 this
  have hpp : 0 < T.pipe := by rw [hb]; exact Nat.two_pow_pos b
  have ⟨hin, _, _, _⟩ := C37_loads_in_bounds (Or.inr ⟨a, ha⟩) (Nat.mul_pos hpp hT.unroll) (Or.inl (Nat.dvd_mul_right_of_dvd hab _)) hc
  exact deal_dealZ f z hz es hin (groups_count hT ((tune_done hT es.length).shape c hc))

theorem mul_mag0 [F.OK] {x y : Flt} (hx : F.Finite x) (hy : F.Finite y) (h : y.mag = 0) : F.Finite (F.mul x y) ∧ (F.mul x y).mag = 0 := by
  have hy0 : F.toInt y = 0 := toInt_mag0 h
  have := mul_exact hx hy (r := 0) (m := 0) (e := 0) (by rw [hy0]; ring) (by simp) (pow_pos' _) (by simp)
  refine ⟨this.1, ?_⟩
  have h0 := this.2
  have : F.val (F.mul x y).mag = 0 := by rw [← toInt_natAbs, h0]; rfl
  exact val_eq_zero.1 this

theorem mul_self_zero [F.OK] {x : Flt} (hx : F.Finite x) (h : x.mag = 0) : F.mul x x = zero := by
  have h1 := (mul_mag0 hx hx h).2
  have h2 : (F.mul x x).neg = false := by
    unfold Fmt.mul
    have hn : F.isNaN x = false := by
      unfold Fmt.isNaN; unfold Fmt.Finite at hx; simp; omega
    have hi : F.isInf x = false := by
      unfold Fmt.isInf; unfold Fmt.Finite at hx; simp; omega
    simp [hn, hi]
  cases hm : F.mul x x with
  | mk n m => rw [hm] at h1 h2; simp only at h1 h2; subst h1; subst h2; rfl

theorem mul_comm_mag0 [F.OK] {x : Flt} (hx : F.Finite x) : F.Finite (F.mul zero x) ∧ (F.mul zero x).mag = 0 := by
  have h0 : F.toInt zero = 0 := toInt_mag0 rfl
  have := mul_exact (show F.Finite zero from zero_finite) hx (r := 0) (m := 0) (e := 0) (by rw [h0]; ring) (by simp) (pow_pos' _) (by simp)
  refine ⟨this.1, ?_⟩
  have : F.val (F.mul zero x).mag = 0 := by rw [← toInt_natAbs]; exact congrArg Int.natAbs this.2
  exact val_eq_zero.1 this

theorem consSISD_congr {n : Nat} (hn : 0 < n) {s s' : Nat → Flt} {c : Flt} (h : ∀ l, l < n → s l = s' l) : F.consSISD n s c = F.consSISD n s' c := by
  unfold consSISD
  rw [h 0 hn]
  refine List.foldl_ext _ _ _ (fun C r hr => ?_)
  have := List.mem_range'_1.mp hr
  rw [h r (by omega)]

theorem consSIMD_congr {b n : Nat} (hb : 0 < b) (hd : b ∣ n) (hn : 0 < n) {s s' : Nat → Flt} {c : Flt} (h : ∀ l, l < n → s l = s' l) :
    F.consSIMD b n s c = F.consSIMD b n s' c := by
  obtain ⟨q, rfl⟩ := hd
  have hq : 0 < q := Nat.pos_of_mul_pos_left hn
  have hlt : ∀ r i, r < q → i < b → r * b + i < b * q := by
    intro r i hr hi
    have : (r + 1) * b ≤ q * b := Nat.mul_le_mul_right _ hr
    rw [Nat.succ_mul] at this; rw [Nat.mul_comm b q]; omega
  have hreg : ∀ i, i < b → (List.range' 1 (b * q / b - 1)).foldl (fun a r => F.add a (F.sub (s (r * b + i)) c)) (F.sub (s i) (if i = 0 then zero else c))
      = (List.range' 1 (b * q / b - 1)).foldl (fun a r => F.add a (F.sub (s' (r * b + i)) c)) (F.sub (s' i) (if i = 0 then zero else c)) := by
    intro i hi
    have := hlt 0 i hq hi
    rw [Nat.zero_mul, Nat.zero_add] at this
    rw [h i this]
    refine List.foldl_ext _ _ _ (fun C r hr => ?_)
    have := List.mem_range'_1.mp hr
    rw [Nat.mul_div_cancel_left _ hb] at this
    rw [h _ (hlt r i (by omega) hi)]
  unfold consSIMD
  dsimp only
  rw [hreg 0 hb]
  refine List.foldl_ext _ _ _ (fun C i hi => ?_)
  have := List.mem_range'_1.mp hi
  rw [hreg i (by omega)]

/-- The primaries of part `k` in memory. -/
def priAt (fold : Nat) (σ : Regs) (k : Nat) : List Flt := (List.range fold).map (fun j => σ (.y k j) 0)

theorem nth_rm (f : Nat → Flt) {i n : Nat} (h : i < n) : nth ((List.range n).map f) i = f i := getD_rm f _ h

namespace Gen
variable {G : Gen}

theorem priAt_head {fold : Nat} (hf : 1 ≤ fold) (σ : Regs) (k : Nat) : nth (priAt fold σ k) 0 = σ (.y k 0) 0 := nth_rm _ hf

/-- The effect of a generated kernel, real and complex. -/
theorem kernelCode_spec [F.OK] (hT : G.T.OK F) (hfit : G.Fits) (M : Nat → Int → Flt) (incX incZ : Int) {expand : Bool} {fold n : Nat}
    (hf : 1 ≤ fold) (he : expand = true → 2 ≤ fold) (σ : Regs) :
    (G.cplx = true → ∀ k, k < 2 → ∀ j, j < fold → ∀ t, G.kernelCode F M incX incZ expand fold n σ (.y k j) t
      = nth (F.kernelZ G.T (zmode (F.dmindex0 (nth (priAt fold σ k) 0)) (F.dmindex0 (nth (priAt fold σ (1 - k)) 0))) G.e (opF F G.T G.op k)
          zfill (G.elts M incX incZ n) (priAt fold σ k)) j)
    ∧ (G.cplx = false → opF F G.T G.op 0 zfill 0 = zero → ∀ j, j < fold → ∀ t, G.kernelCode F M incX incZ expand fold n σ (.y 0 j) t
      = nth (F.kernel G.T ((G.elts M incX incZ n).map (fun a => opF F G.T G.op 0 a 0)) (priAt fold σ 0)) j)
    ∧ (∀ k j, fold ≤ j → G.kernelCode F M incX incZ expand fold n σ (.y k j) = σ (.y k j)) := by
  have hbp := Gen.base_pos hT
  have hcount := Gen.lanes_count hT
  have ⟨p1, p2⟩ := G.propagates_spec (F := F) (fun _ _ => Fmt.zero) expand σ fold
  obtain ⟨σ1, hσ1⟩ : ∃ σ1, σ1 = F.run (fun _ _ => Fmt.zero) ((List.range fold).flatMap (fun j => G.propagate j (G.accv expand j))) σ := ⟨_, rfl⟩
  rw [← hσ1] at p1 p2
  obtain ⟨i0, hi0⟩ : ∃ i0, i0 = F.dmindex0 (σ1 (.y 0 0) 0) := ⟨_, rfl⟩
  obtain ⟨i1, hi1⟩ : ∃ i1, i1 = (G.cplx && F.dmindex0 (σ1 (.y 1 0) 0)) := ⟨_, rfl⟩
  obtain ⟨σ2, hσ2⟩ : ∃ σ2, σ2 = (if i0 || i1 then F.run (fun _ _ => Fmt.zero) (G.factors F i0 i1) σ1 else σ1) := ⟨_, rfl⟩
  obtain ⟨σ3, hσ3⟩ : ∃ σ3, σ3 = (runUnrolled G.tsz (G.T.pipe * G.T.unroll) n).done.foldl
    (fun σ c => F.run (G.memAt M incX incZ c.off) (G.body F incX incZ (i0 || i1) expand fold c) σ) σ2 := ⟨_, rfl⟩
  have hK : G.kernelCode F M incX incZ expand fold n σ
      = F.run (fun _ _ => Fmt.zero) ((List.range fold).flatMap (fun j => G.consolidate j (G.accv expand j))) σ3 := by
    unfold Gen.kernelCode
    dsimp only
    rw [← hσ1, ← hi0, ← hi1, ← hσ2, ← hσ3]
  have hfac : (i0 = true ∨ i1 = true → ∀ r t, t < G.base →
        σ2 (.comp (r % G.suf)) t = facC F i0 i1 ((r * G.base + t) % G.pw)
        ∧ σ2 (.expn (r % G.suf)) t = facH F i0 i1 ((r * G.base + t) % G.pw)
        ∧ (G.cplx = true → σ2 (.mask (r % G.suf)) t = facM F i0 i1 ((r * G.base + t) % G.pw)))
      ∧ (∀ v, (∀ i, v ≠ .comp i) → (∀ i, v ≠ .expn i) → (∀ i, v ≠ .mask i) → σ2 v = σ1 v) := by
    rw [hσ2]
    by_cases h : i0 = true ∨ i1 = true
    · have e : (i0 || i1) = true := by simpa using h
      rw [if_pos e]
      have ⟨f1, f2, f3, f4⟩ := G.factors_spec (F := F) (fun _ _ => Fmt.zero) σ1 i0 i1 h (by intro hc; rw [hi1, hc]; rfl)
      exact ⟨fun _ r t ht => ⟨f1 r t ht, f2 r t ht, fun hc => f3 hc r t ht⟩, f4⟩
    · have e : ¬ (i0 || i1) = true := by simpa using h
      rw [if_neg e]
      exact ⟨fun h' => absurd h' h, fun _ _ _ _ => rfl⟩
  obtain ⟨f1, f2⟩ := hfac
  have ⟨b1, b2⟩ := bodies_spec hT hfit M incX incZ (expand := expand) (i0 || i1) hf he σ2 σ3 hσ3
  have ⟨c1, c2⟩ := G.consolidates_spec hT (fun _ _ => Fmt.zero) expand σ3 fold
  rw [← hK] at c1 c2
  have hy : ∀ k j, σ3 (.y k j) = σ (.y k j) := by
    intro k j; rw [b2, f2 _ (by simp) (by simp) (by simp), p2]
  have hcol : ∀ r, r < G.maxRW → ∀ t, t < G.base → colOf expand fold σ2 r t = priAt fold σ ((r * G.base + t) % G.pw) := by
    intro r hr t ht
    unfold colOf priAt
    apply List.map_congr_left
    intro j hj
    have hj := List.mem_range.mp hj
    have hx : ∀ v, v = accVar expand j r → (∀ i, v ≠ .comp i) ∧ (∀ i, v ≠ .expn i) ∧ (∀ i, v ≠ .mask i) := by
      rintro v rfl; unfold accVar; cases expand <;> simp
    have hx := hx _ rfl
    rw [f2 _ hx.1 hx.2.1 hx.2.2, p1 j hj r hr t ht]
  -- the lane `l` of part `k`
  have hlane : ∀ k, k < G.pw → ∀ l, l < G.e * G.T.pipe →
      (l * G.pw + k) / G.base < G.maxRW ∧ (l * G.pw + k) % G.base < G.base
        ∧ ((l * G.pw + k) / G.base * G.base + (l * G.pw + k) % G.base) % G.pw = k
        ∧ ((l * G.pw + k) / G.base * G.base + (l * G.pw + k) % G.base) / G.pw = l := by
    intro k hk l hl
    have h1 := Nat.div_add_mod (l * G.pw + k) G.base
    rw [Nat.mul_comm] at h1
    refine ⟨?_, Nat.mod_lt _ hbp, ?_, ?_⟩
    · rw [Nat.div_lt_iff_lt_mul hbp, hcount]
      have : (l + 1) * G.pw ≤ G.e * G.T.pipe * G.pw := Nat.mul_le_mul_right _ hl
      rw [Nat.succ_mul] at this; omega
    · rw [h1, Nat.add_comm, Nat.add_mul_mod_self_right, Nat.mod_eq_of_lt hk]
    · rw [h1, Nat.add_comm, Nat.add_mul_div_right _ _ G.pw_pos, Nat.div_eq_of_lt hk, Nat.zero_add]
  have hi0' : i0 = F.dmindex0 (nth (priAt fold σ 0) 0) := by rw [hi0, priAt_head hf, p2]
  refine ⟨?_, ?_, ?_⟩
  · intro hc k hk j hj t
    have hpw : G.pw = 2 := by unfold Gen.pw; rw [hc]; rfl
    have hi1' : i1 = F.dmindex0 (nth (priAt fold σ 1) 0) := by rw [hi1, hc, Bool.true_and, priAt_head hf, p2]
    have hmode : zmode (F.dmindex0 (nth (priAt fold σ k) 0)) (F.dmindex0 (nth (priAt fold σ (1 - k)) 0))
        = zmode (if k = 0 then i0 else i1) (if k = 0 then i1 else i0) := by
      have : k = 0 ∨ k = 1 := by omega
      rcases this with rfl | rfl
      · rw [← hi0', ← hi1', if_pos rfl, if_pos rfl]
      · rw [← hi1', if_neg (by omega), if_neg (by omega), ← hi0']
    rw [hmode]
    have hl : ∀ l, l < G.e * G.T.pipe → laneVal G expand σ3 j k l
        = nth ((F.lanesZ (zmode (if k = 0 then i0 else i1) (if k = 0 then i1 else i0)) (G.e * G.T.pipe)
          (G.T.traceZ G.e (opF F G.T G.op k) zfill (G.elts M incX incZ n)) (priAt fold σ k)).getD l (priAt fold σ k)) j := by
      intro l hl
      obtain ⟨a1, a2, a3, a4⟩ := hlane k (by omega) l hl
      have := b1 _ a1 _ a2
      rw [a3, a4, hcol _ a1 _ a2, a3] at this
      rw [lanesZ_getD _ _ _ hl]
      have hv : laneVal G expand σ3 j k l = nth (colOf expand fold σ3 ((l * G.pw + k) / G.base) ((l * G.pw + k) % G.base)) j := by
        unfold laneVal colOf; rw [nth_rm _ hj]
      rw [hv, this]
      congr 1
      refine List.foldl_ext _ _ _ (fun C x _ => ?_)
      rw [hc]
      apply gstep_cplx
      intro hi
      obtain ⟨d1, d2, d3⟩ := f1 hi ((l * G.pw + k) / G.base) ((l * G.pw + k) % G.base) a2
      rw [a3] at d1 d2 d3
      exact ⟨d1, d2, d3 hc⟩
    rw [c1 k (by omega) j hj t, hy]
    unfold kernelZ consolidateZ
    rw [nth_rm _ (by unfold priAt; simpa using hj)]
    have hn : nth (priAt fold σ k) j = σ (.y k j) 0 := nth_rm _ hj
    rw [hn]
    obtain ⟨a, ha⟩ := hT.ts
    obtain ⟨b, hb⟩ := hT.pipe
    have hts0 : 0 < G.T.ts := by rw [ha]; exact Nat.two_pow_pos a
    have hN0 : 0 < G.e * G.T.pipe := Nat.mul_pos G.e_pos (by rw [hb]; exact Nat.two_pow_pos b)
    have hdv : G.T.ts ∣ G.e * G.T.pipe := by
      apply Nat.dvd_mul_left_of_dvd
      rw [ha, hb]; apply Nat.pow_dvd_pow
      have := hT.tp; rw [ha, hb] at this
      exact (Nat.pow_le_pow_iff_right (by omega : 1 < 2)).1 this
    by_cases hs : G.T.simd = true ∧ ¬ (G.cplx = true ∧ G.T.ts = 1)
    · have e : (G.T.simd && G.T.ts != 1) = true := by
        have := hs.2; simp [hs.1]; intro h; exact this ⟨hc, h⟩
      rw [if_pos hs, if_pos e]
      exact consSIMD_congr hts0 hdv hN0 hl
    · have e : ¬ (G.T.simd && G.T.ts != 1) = true := by
        intro h; apply hs; simp at h; exact ⟨h.1, fun h' => h.2 h'.2⟩
      rw [if_neg hs, if_neg e]
      exact consSISD_congr hN0 hl
  · intro hc hz j hj t
    have hpw : G.pw = 1 := by unfold Gen.pw; rw [hc]; rfl
    have he1 : G.e = 1 := by unfold Gen.e; split <;> first | exact hpw | rfl
    have hi1' : i1 = false := by rw [hi1, hc]; rfl
    have hopf : (fun a (_ : Nat) => opF F G.T G.op 0 a 0) = opF F G.T G.op 0 := by
      funext a h
      unfold Gen.Fits at hfit
      cases hop : G.op <;> rw [hop] at hfit <;> simp only [opF]
      · rw [hc] at hfit; cases hfit
      · rw [hc] at hfit; cases hfit
    have hl : ∀ l, l < G.T.pipe → laneVal G expand σ3 j 0 l
        = nth ((F.lanes i0 G.T.pipe
          (G.T.trace ((G.elts M incX incZ n).map (fun a => opF F G.T G.op 0 a 0))) (priAt fold σ 0)).getD l (priAt fold σ 0)) j := by
      intro l hl
      obtain ⟨a1, a2, a3, a4⟩ := hlane 0 (by omega) l (by rw [he1]; omega)
      have := b1 _ a1 _ a2
      rw [a3, a4, hcol _ a1 _ a2, a3] at this
      rw [lanes_getD _ _ _ hl, trace_traceZ hT _ zfill hz, hopf]
      have hv : laneVal G expand σ3 j 0 l = nth (colOf expand fold σ3 ((l * G.pw + 0) / G.base) ((l * G.pw + 0) % G.base)) j := by
        unfold laneVal colOf; rw [nth_rm _ hj]
      rw [hv, this, he1]
      congr 1
      refine List.foldl_ext _ _ _ (fun C x _ => ?_)
      rw [hc, hi1', Bool.or_false]
      apply gstep_real
      intro hi
      obtain ⟨d1, d2, d3⟩ := f1 (Or.inl hi) ((l * G.pw + 0) / G.base) ((l * G.pw + 0) % G.base) a2
      rw [a3] at d1 d2
      rw [d1, d2]
      unfold facC facH
      simp [hi]
    rw [c1 0 (by omega) j hj t, hy]
    unfold Fmt.kernel Fmt.consolidate
    rw [nth_rm _ (by unfold priAt; simpa using hj), ← hi0']
    have hn : nth (priAt fold σ 0) j = σ (.y 0 j) 0 := nth_rm _ hj
    rw [hn, he1, Nat.one_mul]
    obtain ⟨a, ha⟩ := hT.ts
    obtain ⟨b, hb⟩ := hT.pipe
    have hts0 : 0 < G.T.ts := by rw [ha]; exact Nat.two_pow_pos a
    have hN0 : 0 < G.T.pipe := by rw [hb]; exact Nat.two_pow_pos b
    have hdv : G.T.ts ∣ G.T.pipe := by
      rw [ha, hb]; apply Nat.pow_dvd_pow
      have := hT.tp; rw [ha, hb] at this
      exact (Nat.pow_le_pow_iff_right (by omega : 1 < 2)).1 this
    by_cases hs : G.T.simd = true
    · rw [if_pos ⟨hs, by rw [hc]; simp⟩, if_pos hs]
      exact consSIMD_congr hts0 hdv hN0 hl
    · rw [if_neg (fun h => hs h.1), if_neg hs]
      exact consSISD_congr hN0 hl
  · intro k j hj
    rw [c2 _ (by simp) (fun _ _ _ => y_not_acc _ _ _ _ _) (fun k' j' hj' he => by have := (Var.y.inj he).2; omega), hy]

end Gen

/-! ## The kernels of the library -/

/-- The array of complex numbers whose words are behind the pointer `p`. -/
def cwords (M : Nat → Int → Flt) (p : Nat) : Int → Flt × Flt := fun a => (M p (2 * a), M p (2 * a + 1))

theorem elts_real (T : Tune) (op : DepOp) (M : Nat → Int → Flt) (incX incZ : Int) (n : Nat) :
    (Gen.mk T false op).elts M incX incZ n = (List.range n).map (fun (i : Nat) => ((M 0 ((i : Int) * incX), zero), (M 1 ((i : Int) * incZ), zero))) := by
  unfold Gen.elts
  apply List.map_congr_left
  intro i _
  unfold Gen.elt Gen.pw
  simp only [Bool.false_eq_true, ↓reduceIte]
  rw [show incX * ((1 : Nat) : Int) * (i : Int) = (i : Int) * incX from by push_cast; ring,
    show incZ * ((1 : Nat) : Int) * (i : Int) = (i : Int) * incZ from by push_cast; ring]

theorem elts_cplx (T : Tune) (op : DepOp) (M : Nat → Int → Flt) (incX incZ : Int) (n : Nat) :
    (Gen.mk T true op).elts M incX incZ n = (gatherZ (cwords M 0) incX n).zip (gatherZ (cwords M 1) incZ n) := by
  unfold Gen.elts gatherZ
  rw [List.zip, zip_rm, Nat.min_self]
  apply List.map_congr_left
  intro i _
  unfold Gen.elt Gen.pw cwords
  simp only [↓reduceIte]
  rw [show incX * ((2 : Nat) : Int) * (i : Int) = 2 * ((i : Int) * incX) from by push_cast; ring,
    show incZ * ((2 : Nat) : Int) * (i : Int) = 2 * ((i : Int) * incZ) from by push_cast; ring]

theorem elts_fst (T : Tune) (op : DepOp) (M : Nat → Int → Flt) (incX incZ : Int) (n : Nat) :
    ((Gen.mk T true op).elts M incX incZ n).map Prod.fst = gatherZ (cwords M 0) incX n := by
  rw [elts_cplx]
  apply List.map_fst_zip
  unfold gatherZ; simp

theorem kernelZ_fst {α β : Type} (T : Tune) (mode : Mode) (e : Nat) (f : α → Nat → Flt) (g : α × β → Nat → Flt) (zf : α) (z : α × β) (hz : zf = z.1)
    (hg : ∀ a h, f a.1 h = g a h) (es : List (α × β)) (pri : List Flt) :
    F.kernelZ T mode e f zf (es.map Prod.fst) pri = F.kernelZ T mode e g z es pri := by
  subst hz
  rw [kernelZ_map]
  congr 1
  funext a h
  exact hg a h

section
variable [F.OK] {T : Tune} (hT : T.OK F) (M : Nat → Int → Flt) (incX incZ : Int) {expand : Bool} {fold n : Nat}
  (hf : 1 ≤ fold) (he : expand = true → 2 ≤ fold) (σ : Regs)
include hT hf he

/-- **C62.** The generated kernel for sums of real vectors: for every tuning, increment, length and contents of the
variables before it, the primaries in memory become those of the lane model. -/
theorem C62_sum {j : Nat} (hj : j < fold) (t : Nat) :
    (Gen.mk T false .sum).kernelCode F M incX incZ expand fold n σ (.y 0 j) t
      = nth (F.kernel T (gather (M 0) incX n) (priAt fold σ 0)) j := by
  rw [((Gen.mk T false .sum).kernelCode_spec hT trivial M incX incZ hf he σ).2.1 rfl rfl j hj t, elts_real, List.map_map]
  rfl

/-- **C62.** Sums of absolute values. -/
theorem C62_asum {j : Nat} (hj : j < fold) (t : Nat) :
    (Gen.mk T false .asum).kernelCode F M incX incZ expand fold n σ (.y 0 j) t
      = nth (F.kernel T ((gather (M 0) incX n).map fabs) (priAt fold σ 0)) j := by
  rw [((Gen.mk T false .asum).kernelCode_spec hT trivial M incX incZ hf he σ).2.1 rfl rfl j hj t, elts_real, List.map_map]
  unfold gather
  rw [List.map_map]
  rfl

/-- **C62.** Sums of scaled squares, for every scale whose reciprocal is finite. -/
theorem C62_ssq {scl : Flt} (hs : F.Finite (F.div F.one scl)) {j : Nat} (hj : j < fold) (t : Nat) :
    (Gen.mk T false (.ssq (F.div F.one scl))).kernelCode F M incX incZ expand fold n σ (.y 0 j) t
      = nth (F.kernel T ((gather (M 0) incX n).map (F.sq scl)) (priAt fold σ 0)) j := by
  have hz : opF F T (.ssq (F.div F.one scl)) 0 Gen.zfill 0 = zero := by
    have := mul_comm_mag0 hs
    exact mul_self_zero this.1 this.2
  rw [((Gen.mk T false (.ssq (F.div F.one scl))).kernelCode_spec hT trivial M incX incZ hf he σ).2.1 rfl hz j hj t, elts_real, List.map_map]
  unfold gather
  rw [List.map_map]
  rfl

/-- **C62.** Dot products. -/
theorem C62_dot {j : Nat} (hj : j < fold) (t : Nat) :
    (Gen.mk T false .dot).kernelCode F M incX incZ expand fold n σ (.y 0 j) t
      = nth (F.kernel T (products F n (M 0) incX (M 1) incZ) (priAt fold σ 0)) j := by
  have hz : opF F T .dot 0 Gen.zfill 0 = zero := mul_self_zero (show F.Finite zero from zero_finite) rfl
  rw [((Gen.mk T false .dot).kernelCode_spec hT rfl M incX incZ hf he σ).2.1 rfl hz j hj t, elts_real, List.map_map]
  rfl

/-- **C62.** The generated kernel for sums of complex vectors: real parts. -/
theorem C62_zsum {j : Nat} (hj : j < fold) (t : Nat) :
    (Gen.mk T true .sum).kernelCode F M incX incZ expand fold n σ (.y 0 j) t
      = nth (F.kernelZ T (zmode (F.dmindex0 (nth (priAt fold σ 0) 0)) (F.dmindex0 (nth (priAt fold σ 1) 0))) 1 zsumOp.fR zsumOp.zfill
          (gatherZ (cwords M 0) incX n) (priAt fold σ 0)) j
    ∧ (Gen.mk T true .sum).kernelCode F M incX incZ expand fold n σ (.y 1 j) t
      = nth (F.kernelZ T (zmode (F.dmindex0 (nth (priAt fold σ 1) 0)) (F.dmindex0 (nth (priAt fold σ 0) 0))) 1 zsumOp.fI zsumOp.zfill
          (gatherZ (cwords M 0) incX n) (priAt fold σ 1)) j := by
  have h := ((Gen.mk T true .sum).kernelCode_spec hT trivial M incX incZ (n := n) hf he σ).1 rfl
  have he1 : (Gen.mk T true .sum).e = 1 := rfl
  rw [h 0 (by omega) j hj t, h 1 (by omega) j hj t, ← elts_fst T .sum M incX incZ n, he1]
  simp only [Nat.sub_zero, Nat.sub_self]
  generalize (Gen.mk T true .sum).elts M incX incZ n = es
  rw [kernelZ_fst T _ 1 zsumOp.fR (opF F T .sum 0) zsumOp.zfill Gen.zfill rfl (fun _ _ => rfl),
    kernelZ_fst T _ 1 zsumOp.fI (opF F T .sum 1) zsumOp.zfill Gen.zfill rfl (fun _ _ => rfl)]
  exact ⟨rfl, rfl⟩

/-- **C62.** Sums of the absolute values of the parts. -/
theorem C62_zasum {j : Nat} (hj : j < fold) (t : Nat) :
    (Gen.mk T true .asum).kernelCode F M incX incZ expand fold n σ (.y 0 j) t
      = nth (F.kernelZ T (zmode (F.dmindex0 (nth (priAt fold σ 0) 0)) (F.dmindex0 (nth (priAt fold σ 1) 0))) 1 zasumOp.fR zasumOp.zfill
          (gatherZ (cwords M 0) incX n) (priAt fold σ 0)) j
    ∧ (Gen.mk T true .asum).kernelCode F M incX incZ expand fold n σ (.y 1 j) t
      = nth (F.kernelZ T (zmode (F.dmindex0 (nth (priAt fold σ 1) 0)) (F.dmindex0 (nth (priAt fold σ 0) 0))) 1 zasumOp.fI zasumOp.zfill
          (gatherZ (cwords M 0) incX n) (priAt fold σ 1)) j := by
  have h := ((Gen.mk T true .asum).kernelCode_spec hT trivial M incX incZ (n := n) hf he σ).1 rfl
  have he1 : (Gen.mk T true .asum).e = 1 := rfl
  rw [h 0 (by omega) j hj t, h 1 (by omega) j hj t, ← elts_fst T .asum M incX incZ n, he1]
  simp only [Nat.sub_zero, Nat.sub_self]
  generalize (Gen.mk T true .asum).elts M incX incZ n = es
  rw [kernelZ_fst T _ 1 zasumOp.fR (opF F T .asum 0) zasumOp.zfill Gen.zfill rfl (fun _ _ => rfl),
    kernelZ_fst T _ 1 zasumOp.fI (opF F T .asum 1) zasumOp.zfill Gen.zfill rfl (fun _ _ => rfl)]
  exact ⟨rfl, rfl⟩

/-- **C62.** Sums of the scaled squares of the parts. -/
theorem C62_zssq (scl : Flt) {j : Nat} (hj : j < fold) (t : Nat) :
    (Gen.mk T true (.ssq (F.div F.one scl))).kernelCode F M incX incZ expand fold n σ (.y 0 j) t
      = nth (F.kernelZ T (zmode (F.dmindex0 (nth (priAt fold σ 0) 0)) (F.dmindex0 (nth (priAt fold σ 1) 0))) 1 (F.zssqOp scl).fR (F.zssqOp scl).zfill
          (gatherZ (cwords M 0) incX n) (priAt fold σ 0)) j
    ∧ (Gen.mk T true (.ssq (F.div F.one scl))).kernelCode F M incX incZ expand fold n σ (.y 1 j) t
      = nth (F.kernelZ T (zmode (F.dmindex0 (nth (priAt fold σ 1) 0)) (F.dmindex0 (nth (priAt fold σ 0) 0))) 1 (F.zssqOp scl).fI (F.zssqOp scl).zfill
          (gatherZ (cwords M 0) incX n) (priAt fold σ 1)) j := by
  have h := ((Gen.mk T true (.ssq (F.div F.one scl))).kernelCode_spec hT trivial M incX incZ (n := n) hf he σ).1 rfl
  have he1 : (Gen.mk T true (.ssq (F.div F.one scl))).e = 1 := rfl
  rw [h 0 (by omega) j hj t, h 1 (by omega) j hj t, ← elts_fst T (.ssq (F.div F.one scl)) M incX incZ n, he1]
  simp only [Nat.sub_zero, Nat.sub_self]
  generalize (Gen.mk T true (.ssq (F.div F.one scl))).elts M incX incZ n = es
  rw [kernelZ_fst T _ 1 (F.zssqOp scl).fR (opF F T (.ssq (F.div F.one scl)) 0) (F.zssqOp scl).zfill Gen.zfill rfl (fun _ _ => rfl),
    kernelZ_fst T _ 1 (F.zssqOp scl).fI (opF F T (.ssq (F.div F.one scl)) 1) (F.zssqOp scl).zfill Gen.zfill rfl (fun _ _ => rfl)]
  exact ⟨rfl, rfl⟩

/-- **C62.** Unconjugated dot products. -/
theorem C62_dotu {j : Nat} (hj : j < fold) (t : Nat) :
    (Gen.mk T true .dotu).kernelCode F M incX incZ expand fold n σ (.y 0 j) t
      = nth (F.kernelZ T (zmode (F.dmindex0 (nth (priAt fold σ 0) 0)) (F.dmindex0 (nth (priAt fold σ 1) 0))) 2 (F.dotuOp T).fR (F.dotuOp T).zfill
          ((gatherZ (cwords M 0) incX n).zip (gatherZ (cwords M 1) incZ n)) (priAt fold σ 0)) j
    ∧ (Gen.mk T true .dotu).kernelCode F M incX incZ expand fold n σ (.y 1 j) t
      = nth (F.kernelZ T (zmode (F.dmindex0 (nth (priAt fold σ 1) 0)) (F.dmindex0 (nth (priAt fold σ 0) 0))) 2 (F.dotuOp T).fI (F.dotuOp T).zfill
          ((gatherZ (cwords M 0) incX n).zip (gatherZ (cwords M 1) incZ n)) (priAt fold σ 1)) j := by
  have h := ((Gen.mk T true .dotu).kernelCode_spec hT rfl M incX incZ (n := n) hf he σ).1 rfl
  rw [h 0 (by omega) j hj t, h 1 (by omega) j hj t, elts_cplx]
  exact ⟨rfl, rfl⟩

/-- **C62.** Conjugated dot products. -/
theorem C62_dotc {j : Nat} (hj : j < fold) (t : Nat) :
    (Gen.mk T true .dotc).kernelCode F M incX incZ expand fold n σ (.y 0 j) t
      = nth (F.kernelZ T (zmode (F.dmindex0 (nth (priAt fold σ 0) 0)) (F.dmindex0 (nth (priAt fold σ 1) 0))) 2 (F.dotcOp T).fR (F.dotcOp T).zfill
          ((gatherZ (cwords M 0) incX n).zip (gatherZ (cwords M 1) incZ n)) (priAt fold σ 0)) j
    ∧ (Gen.mk T true .dotc).kernelCode F M incX incZ expand fold n σ (.y 1 j) t
      = nth (F.kernelZ T (zmode (F.dmindex0 (nth (priAt fold σ 1) 0)) (F.dmindex0 (nth (priAt fold σ 0) 0))) 2 (F.dotcOp T).fI (F.dotcOp T).zfill
          ((gatherZ (cwords M 0) incX n).zip (gatherZ (cwords M 1) incZ n)) (priAt fold σ 1)) j := by
  have h := ((Gen.mk T true .dotc).kernelCode_spec hT rfl M incX incZ (n := n) hf he σ).1 rfl
  rw [h 0 (by omega) j hj t, h 1 (by omega) j hj t, elts_cplx]
  exact ⟨rfl, rfl⟩

/-- **C62.** No word of the accumulator behind the primaries of the fold is written. -/
theorem C62_frame {cplx : Bool} {op : DepOp} (hfit : (Gen.mk T cplx op).Fits) (k : Nat) {j : Nat} (hj : fold ≤ j) :
    (Gen.mk T cplx op).kernelCode F M incX incZ expand fold n σ (.y k j) = σ (.y k j) :=
  ((Gen.mk T cplx op).kernelCode_spec hT hfit M incX incZ hf he σ).2.2 k j hj

omit he in
/-- **C62.** Expanding a fold into registers or keeping it in a buffer makes no difference. -/
theorem C62_expand {cplx : Bool} {op : DepOp} (hfit : (Gen.mk T cplx op).Fits) (h2 : 2 ≤ fold) {k j : Nat} (hk : k < (Gen.mk T cplx op).pw)
    (hj : j < fold) (t : Nat) (hz : cplx = false → opF F T op 0 Gen.zfill 0 = zero) :
    (Gen.mk T cplx op).kernelCode F M incX incZ true fold n σ (.y k j) t = (Gen.mk T cplx op).kernelCode F M incX incZ false fold n σ (.y k j) t := by
  have h1 := (Gen.mk T cplx op).kernelCode_spec hT hfit M incX incZ (expand := true) (n := n) hf (fun _ => h2) σ
  have h2 := (Gen.mk T cplx op).kernelCode_spec hT hfit M incX incZ (expand := false) (n := n) hf (fun h => nomatch h) σ
  cases cplx
  · obtain rfl : k = 0 := by simp [Gen.pw] at hk; exact hk
    rw [h1.2.1 rfl (hz rfl) j hj t, h2.2.1 rfl (hz rfl) j hj t]
  · have hk : k < 2 := by simpa [Gen.pw] using hk
    rw [h1.1 rfl k hk j hj t, h2.1 rfl k hk j hj t]

end

/-! A concrete case: scalar code with two lanes. All variables hold NaN before the kernel, the accumulator has been updated
for `2^3`. -/
def gT : Tune := ⟨2, 1, 2, 1, 1, false⟩
def gM : Nat → Int → Flt := fun p a => f32.pow2 (p + a.toNat)
def gσ : Regs := fun v _ => match v with
  | .y _ j => nth (f32.dmdupdate 2 (f32.pow2 3) (dmsetzero 2)).pri j
  | _ => f32.nan

theorem gT_ok : gT.OK f32 := by constructor <;> first | decide | exact ⟨0, rfl⟩ | exact ⟨1, rfl⟩

example : gT.OK f32 ∧ (List.range 2).map (fun j => (Gen.mk gT false .sum).kernelCode f32 gM 1 1 true 2 3 gσ (.y 0 j) 0)
      = f32.kernel gT [f32.pow2 0, f32.pow2 1, f32.pow2 2] (priAt 2 gσ 0) := ⟨gT_ok, by decide +kernel⟩

example : (Gen.mk gT true .dotu).kernelCode f32 gM 1 1 true 2 1 gσ (.y 1 0) 0 ≠ gσ (.y 1 0) 0 := by decide +kernel

/-- AVX code, double precision, fold 3, negative increment. -/
example (M : Nat → Int → Flt) (σ : Regs) (n : Nat) : (Gen.mk exAVX false .sum).kernelCode f64 M (-2) 0 true 3 n σ (.y 0 1) 0
    = nth (f64.kernel exAVX (gather (M 0) (-2) n) (priAt 3 σ 0)) 1 := C62_sum exAVX_ok M (-2) 0 (by decide) (fun _ => by decide) σ (by decide) 0

example (M : Nat → Int → Flt) (σ : Regs) (n : Nat) : (Gen.mk exAVX true .dotc).kernelCode f64 M 1 3 false 5 n σ (.y 0 4) 0
    = nth (f64.kernelZ exAVX (zmode (f64.dmindex0 (nth (priAt 5 σ 0) 0)) (f64.dmindex0 (nth (priAt 5 σ 1) 0))) 2 (f64.dotcOp exAVX).fR
        (f64.dotcOp exAVX).zfill ((gatherZ (cwords M 0) 1 n).zip (gatherZ (cwords M 1) 3 n)) (priAt 5 σ 0)) 4 :=
  (C62_dotc exAVX_ok M 1 3 (expand := false) (fold := 5) (n := n) (by decide) (fun h => by cases h) σ (by decide) 0).1

end Repro

import Verif.Search.Obs
import Verif.Search.Reducible

/-!
# C74: `AlgorithmReducibleEquidistribution`
-/

namespace MTT.Search

open Polynomial PIS Finset

variable {σ S : Type} {w : ℕ} [AddCommGroup S] [Module (ZMod 2) S] [Module.Finite (ZMod 2) S]
  {G : GenOps σ w} {Inv : σ → Prop} {den : σ → S}
  {T : S →ₗ[ZMod 2] S} {O : S →ₗ[ZMod 2] V}

/-- `f` is a factor of the minimal polynomial of the outputs of `s`: it divides every recurrence they satisfy. -/
def OutputFactor (G : GenOps σ w) (s : σ) (f : (ZMod 2)[X]) : Prop := ∀ q, AnnAll G s q → f ∣ q

theorem not_dvd_X {f : (ZMod 2)[X]} (h : 2 ≤ f.natDegree) : ¬ f ∣ X := fun hd => by
  have := natDegree_le_of_dvd hd X_ne_zero
  rw [natDegree_X] at this
  omega

theorem exists_outMinpoly (h : LinGen G Inv den T O) {s : σ} (hs : Inv s)
    (hdim : Module.finrank (ZMod 2) S ≤ G.bitSize) :
    ∃ μ, IsVecMinpoly shiftV (obs T O (den s)) μ ∧ μ.natDegree ≤ G.bitSize ∧ AnnAll G s μ := by
  obtain ⟨h1, h2, h3⟩ := charpoly_hyps T (den s)
  have h4 : aeval shiftV T.charpoly (obs T O (den s)) = 0 := by rw [aeval_obs, h2, map_zero]
  obtain ⟨μ, hμ⟩ := exists_vecMinpoly h1.ne_zero h4
  refine ⟨μ, hμ, (natDegree_le_of_dvd ((hμ.2 _).1 h4) h1.ne_zero).trans (h3.le.trans hdim), fun pos hp => ?_⟩
  rw [bitAt_eq (LinGen.obs h) hs hp]
  exact ann_outSeq _ _ ((hμ.2 μ).2 (dvd_refl _))

/-- What the constructor hands over: a state whose outputs satisfy the recurrence `f`, and from which the component
of `f` is produced. -/
theorem reducedCopy_spec {mps : MPS} (hm : MinPolySeqSpec mps) (h : LinGen G Inv den T O) {s : σ} (hs : Inv s)
    (hdim : Module.finrank (ZMod 2) S ≤ G.bitSize) {f : (ZMod 2)[X]} (hf : Irreducible f)
    (h2 : 2 ≤ f.natDegree) (hfac : OutputFactor G s f) :
    ∃ a, reducedCopy mps G s f = some a ∧ Inv a ∧ obs T O (aeval T f (den a)) = 0 ∧
      (Component T O f (den s)).map (obs T O) = (cyc T (den a)).map (obs T O) := by
  obtain ⟨μ, hμ, hμd, hμa⟩ := exists_outMinpoly h hs hdim
  obtain ⟨m, r, e1, -, e3, e4, -⟩ := charPolyLoop_any hm (LinGen.obs h) hs hμ hμd w 0 0 1 (by omega) (one_dvd _)
    (fun pos hp => absurd hp (by omega))
  have hinv : Inv (stateAt G s m) := (stateAt_spec h hs m).1
  have hden : den (stateAt G s m) = (T ^ m) (den s) := (stateAt_spec h hs m).2
  have hann := obs_of_ann h hinv e4
  have hXm : T ^ m = aeval T (X ^ m : (ZMod 2)[X]) := by simp
  have hX := not_dvd_X h2
  have hfr : f ∣ r := by
    have h1 : μ ∣ r * X ^ m := by
      rw [← hμ.2, aeval_obs, map_mul, Module.End.mul_apply, ← hXm, ← hden]
      exact hann
    rcases hf.prime.dvd_or_dvd ((hfac μ hμa).trans h1) with h3 | h3
    · exact h3
    · exact absurd (hf.prime.dvd_of_dvd_pow h3) hX
  obtain ⟨q, rfl⟩ := hfr
  have hq : f * q / f = q := mul_div_cancel_left₀ _ hf.ne_zero
  obtain ⟨a1, a2⟩ := Lin.annihilate_correct h q hinv
  refine ⟨Lin.annihilate G q (stateAt G s m), ?_, a1, ?_, ?_⟩
  · unfold reducedCopy calcCharPoly
    rw [show s = stateAt G s 0 from rfl, e1]
    dsimp only
    rw [hq]
    rfl
  · rw [a2, ← Module.End.mul_apply, ← map_mul]
    exact hann
  · rw [hden] at hann a2
    rw [component_of_quotient hμ hf hX rfl e3 m hann 0, map_cyc, a2]
    rfl

/-- **C74.**  For every linear generator (also with a singular transition) with at most `bitSize()` state bits,
every state of it, every irreducible factor `f` of degree `mexp ≥ 2` of the minimal polynomial of its output and every
`1 ≤ bitLen ≤ w`: `AlgorithmReducibleEquidistribution(rg, f, bitLen, mexp).get_all_equidist(veq)` terminates without
undefined behaviour or exception, `veq[v-1]` is the largest `k` such that the component belonging to `f` is
`k`-dimensionally equidistributed with `v`-bit accuracy, other elements are not touched, and the result is the sum of
the defects with respect to `mexp`. -/
theorem reducibleAll_correct {mps : MPS} (hm : MinPolySeqSpec mps) (h : LinGen G Inv den T O) {s : σ} (hs : Inv s)
    (hdim : Module.finrank (ZMod 2) S ≤ G.bitSize) {f : (ZMod 2)[X]} (hf : Irreducible f) {mexp : ℕ}
    (hd : f.natDegree = mexp) (h2 : 2 ≤ mexp) (hfac : OutputFactor G s f)
    {calc1pos : BitVec w → Int} (hc : IsCalc1pos calc1pos) {bitLen : ℕ} (h1 : 1 ≤ bitLen) (hw : bitLen ≤ w)
    {fuel : ℕ} (hfuel : bitLen * ((bitLen + 1) * mexp) + bitLen + 1 ≤ fuel) (veq0 : ℕ → ℕ) :
    ∃ r, reducibleAll mps G calc1pos s f bitLen mexp fuel veq0 = some (.ok r) ∧
      (∀ v, 1 ≤ v → v ≤ bitLen →
        IsGreatest {k | Equidist T O (Component T O f (den s)) v k} (r.veq (v - 1))) ∧
      (∀ j, bitLen ≤ j → r.veq j = veq0 j) ∧
      r.sum = ∑ v ∈ Icc 1 bitLen, ((mexp / v : ℕ) - (r.veq (v - 1) : ℤ)) := by
  obtain ⟨a, e1, e2, e3, e4⟩ := reducedCopy_spec hm h hs hdim hf (by omega) hfac
  obtain ⟨μ, hμ, hμd, hμa⟩ := exists_outMinpoly h hs hdim
  have hle : f.natDegree ≤ G.bitSize := (natDegree_le_of_dvd (hfac μ hμa) hμ.1).trans hμd
  obtain ⟨r, g1, g2, g3, g4⟩ := getAllEquidist_correct (LinGen.obs h) e2 (monic_of_ne hf.ne_zero)
    (by rw [aeval_obs]; exact e3) (by omega) hd.le hc h1 hw (fuel := fuel) (by rw [hd]; exact hfuel) veq0
  refine ⟨r, ?_, fun v hv1 hv2 => ?_, g3, g4⟩
  · unfold reducibleAll
    rw [e1, Option.map_some, g1]
  · have := g2 v hv1 hv2
    rw [← map_cyc, ← e4] at this
    simpa only [equidist_map] using this

/-- **C74** for `get_equidist(&sum)`. -/
theorem reducibleOne_correct {mps : MPS} (hm : MinPolySeqSpec mps) (h : LinGen G Inv den T O) {s : σ} (hs : Inv s)
    (hdim : Module.finrank (ZMod 2) S ≤ G.bitSize) {f : (ZMod 2)[X]} (hf : Irreducible f) {mexp : ℕ}
    (hd : f.natDegree = mexp) (h2 : 2 ≤ mexp) (hfac : OutputFactor G s f)
    {calc1pos : BitVec w → Int} (hc : IsCalc1pos calc1pos) {bitLen : ℕ} (h1 : 1 ≤ bitLen) (hw : bitLen ≤ w)
    {fuel : ℕ} (hfuel : bitLen * ((bitLen + 1) * mexp) + bitLen + 1 ≤ fuel) :
    ∃ (k : ℕ) (sum : ℤ) (kv : ℕ → ℕ),
      reducibleOne mps G calc1pos s f bitLen mexp fuel = some (.ok (k, sum)) ∧
      IsGreatest {k | Equidist T O (Component T O f (den s)) bitLen k} k ∧
      (∀ v, 1 ≤ v → v < bitLen → IsGreatest {k | Equidist T O (Component T O f (den s)) v k} (kv v)) ∧
      sum = ∑ v ∈ Ico 1 bitLen, ((mexp / v : ℕ) - (kv v : ℤ)) := by
  obtain ⟨a, e1, e2, e3, e4⟩ := reducedCopy_spec hm h hs hdim hf (by omega) hfac
  obtain ⟨μ, hμ, hμd, hμa⟩ := exists_outMinpoly h hs hdim
  have hle : f.natDegree ≤ G.bitSize := (natDegree_le_of_dvd (hfac μ hμa) hμ.1).trans hμd
  obtain ⟨k, sum, kv, g1, g2, g3, g4⟩ := getEquidist_correct (LinGen.obs h) e2 (monic_of_ne hf.ne_zero)
    (by rw [aeval_obs]; exact e3) (by omega) hd.le hc h1 hw (fuel := fuel) (by rw [hd]; exact hfuel)
  refine ⟨k, sum, kv, ?_, ?_, fun v hv1 hv2 => ?_, g4⟩
  · unfold reducibleOne
    rw [e1, Option.map_some, g1]
  · rw [← map_cyc, ← e4] at g2
    simpa only [equidist_map] using g2
  · have := g3 v hv1 hv2
    rw [← map_cyc, ← e4] at this
    simpa only [equidist_map] using this

omit [Module.Finite (ZMod 2) S] in
/-- What is measured: if `f` is primitive (for a Mersenne exponent every irreducible polynomial is), the outputs of
every state of the component are either all zero or have period exactly `2^mexp - 1`. -/
theorem component_period {s x : S} {f : (ZMod 2)[X]} {mexp : ℕ} (h1 : 1 ≤ mexp) (hf : Primitive2 f mexp)
    (hx : x ∈ Component T O f s) (h0 : obs T O x ≠ 0) (k : ℕ) :
    (∀ t, O ((T ^ (t + k)) x) = O ((T ^ t) x)) ↔ 2 ^ mexp - 1 ∣ k := by
  have hk : obs T O (aeval T f x) = 0 := hx.2
  rw [← aeval_obs] at hk
  rw [← period_of_primitive h1 hf hk h0 k, shiftV_pow]
  constructor
  · intro h
    funext t
    show O ((T ^ t) ((T ^ k) x)) = O ((T ^ t) x)
    rw [← h t, pow_add, Module.End.mul_apply]
  · intro h t
    have := congrFun h t
    rw [pow_add, Module.End.mul_apply]
    exact this

/-- The component has `2^mexp` output sequences: the large component is not lost. -/
theorem component_nonzero {s : σ} (h : LinGen G Inv den T O) (hs : Inv s)
    (hdim : Module.finrank (ZMod 2) S ≤ G.bitSize) {f : (ZMod 2)[X]} (hf : Irreducible f)
    (hfac : OutputFactor G s f) : ∃ x ∈ Component T O f (den s), obs T O x ≠ 0 := by
  obtain ⟨μ, hμ, hμd, hμa⟩ := exists_outMinpoly h hs hdim
  obtain ⟨ν, rfl⟩ := hfac μ hμa
  refine ⟨aeval T ν (den s), ⟨(mem_cyc T).2 ⟨ν, rfl⟩, ?_⟩, fun h0 => ?_⟩
  · show obs T O (aeval T f (aeval T ν (den s))) = 0
    rw [← Module.End.mul_apply, ← map_mul, ← aeval_obs, hμ.2]
  · rw [← aeval_obs, hμ.2] at h0
    have hν : ν ≠ 0 := right_ne_zero_of_mul hμ.1
    have := natDegree_le_of_dvd h0 hν
    rw [natDegree_mul hf.ne_zero hν] at this
    have := hf.natDegree_pos
    omega

/-- All states whose outputs satisfy the recurrence `f`. -/
noncomputable def Full (T : S →ₗ[ZMod 2] S) (O : S →ₗ[ZMod 2] V) (f : (ZMod 2)[X]) : Submodule (ZMod 2) S :=
  LinearMap.ker ((obs T O).comp (aeval T f))

/-- In a state space of dimension less than `2 m`, two states whose outputs satisfy irreducible recurrences of degree
`m` are dependent. -/
theorem dependent {m : ℕ} (hdim : Module.finrank (ZMod 2) S < 2 * m) (x y : S) :
    ∃ g h : (ZMod 2)[X], g.degree < m ∧ h.degree < m ∧ (g ≠ 0 ∨ h ≠ 0) ∧ aeval T g x = aeval T h y := by
  let F : (degreeLT (ZMod 2) m × degreeLT (ZMod 2) m) →ₗ[ZMod 2] S :=
    { toFun := fun q => aeval T (q.1 : (ZMod 2)[X]) x - aeval T (q.2 : (ZMod 2)[X]) y
      map_add' := fun a b => by simp only [Prod.fst_add, Prod.snd_add, Submodule.coe_add, map_add, LinearMap.add_apply]; abel
      map_smul' := fun c a => by
        simp only [Prod.smul_fst, Prod.smul_snd, Submodule.coe_smul, map_smul, LinearMap.smul_apply, RingHom.id_apply,
          smul_sub] }
  have hfin : Module.finrank (ZMod 2) (degreeLT (ZMod 2) m) = m := by
    rw [(degreeLTEquiv (ZMod 2) m).finrank_eq, Module.finrank_fin_fun]
  have : Module.Finite (ZMod 2) (degreeLT (ZMod 2) m) :=
    Module.Finite.equiv (degreeLTEquiv (ZMod 2) m).symm
  have hninj : ¬ Function.Injective F := fun hi => by
    have h1 := LinearMap.finrank_le_finrank_of_injective hi
    rw [Module.finrank_prod, hfin] at h1
    omega
  rw [← LinearMap.ker_eq_bot, Submodule.eq_bot_iff] at hninj
  push Not at hninj
  obtain ⟨⟨g, h⟩, hk, hne⟩ := hninj
  refine ⟨g, h, mem_degreeLT.1 g.2, mem_degreeLT.1 h.2, ?_, sub_eq_zero.1 (LinearMap.mem_ker.1 hk)⟩
  by_contra hc
  push Not at hc
  exact hne (Prod.ext (Subtype.ext hc.1) (Subtype.ext hc.2))

omit [Module.Finite (ZMod 2) S] in
/-- A polynomial prime to `f` does not hide the outputs of a state in the component of `f`. -/
theorem obs_ne {x : S} {f g : (ZMod 2)[X]} (hx : x ∈ Full T O f) (hc : IsCoprime f g)
    (hg : obs T O (aeval T g x) = 0) : obs T O x = 0 := by
  have hx' : obs T O (aeval T f x) = 0 := hx
  obtain ⟨u, v, huv⟩ := hc
  have : aeval T (u * f + v * g) x = x := by rw [huv, map_one, Module.End.one_apply]
  rw [← this, map_add (aeval T), LinearMap.add_apply, map_add, map_mul (aeval T) u, map_mul (aeval T) v,
    Module.End.mul_apply, Module.End.mul_apply, ← aeval_obs T O u, ← aeval_obs T O v, hx', hg, map_zero, map_zero, add_zero]

theorem coprime_of_degree {f g : (ZMod 2)[X]} (hf : Irreducible f) {m : ℕ} (hd : f.natDegree = m) (hg : g ≠ 0)
    (hdeg : g.degree < m) : IsCoprime f g :=
  hf.coprime_iff_not_dvd.2 fun hdvd => by
    have h1 := natDegree_le_of_dvd hdvd hg
    have h2 : g.natDegree < m := (natDegree_lt_iff_degree_lt hg).2 hdeg
    omega

/-- **C74.**  If the state space has fewer than `2·mexp` dimensions, the component does not depend on the state from
which it was produced: it consists of all output sequences of the generator that satisfy the recurrence `f`. -/
theorem component_full {f : (ZMod 2)[X]} (hf : Irreducible f) {mexp : ℕ} (hd : f.natDegree = mexp)
    (hdim : Module.finrank (ZMod 2) S < 2 * mexp) {s : S} (hx : ∃ x ∈ Component T O f s, obs T O x ≠ 0) :
    (Component T O f s).map (obs T O) = (Full T O f).map (obs T O) := by
  apply le_antisymm
  · exact Submodule.map_mono inf_le_right
  rintro _ ⟨y, hy, rfl⟩
  obtain ⟨x, hxc, hx0⟩ := hx
  obtain ⟨g, h, hg, hh, hne, e⟩ := dependent (T := T) hdim x y
  have hxF : x ∈ Full T O f := hxc.2
  have hh0 : h ≠ 0 := by
    rintro rfl
    have hg0 : g ≠ 0 := by tauto
    rw [map_zero, LinearMap.zero_apply] at e
    exact hx0 (obs_ne hxF (coprime_of_degree hf hd hg0 hg) (by rw [e, map_zero]))
  obtain ⟨u, v, huv⟩ := coprime_of_degree hf hd hh0 hh
  have hy' : obs T O (aeval T f y) = 0 := hy
  refine ⟨aeval T v (aeval T g x), ⟨?_, ?_⟩, ?_⟩
  · obtain ⟨q, rfl⟩ := (mem_cyc T).1 hxc.1
    exact (mem_cyc T).2 ⟨v * (g * q), by rw [map_mul, map_mul, Module.End.mul_apply, Module.End.mul_apply]⟩
  · show obs T O (aeval T f (aeval T v (aeval T g x))) = 0
    have hx' : obs T O (aeval T f x) = 0 := hxF
    rw [← Module.End.mul_apply, ← Module.End.mul_apply, ← map_mul, ← map_mul, mul_assoc, mul_comm, map_mul,
      Module.End.mul_apply, ← aeval_obs, hx', map_zero]
  · have h1 : obs T O y = obs T O (aeval T (u * f + v * h) y) := by rw [huv, map_one, Module.End.one_apply]
    rw [h1, map_add (aeval T), LinearMap.add_apply, map_add, map_mul (aeval T) u, map_mul (aeval T) v,
      Module.End.mul_apply, Module.End.mul_apply, ← aeval_obs T O u, hy', map_zero, zero_add, e]

/-- **C74.**  In this case there is only one such polynomial. -/
theorem full_unique {f f' : (ZMod 2)[X]} (hf : Irreducible f) (hf' : Irreducible f') {mexp : ℕ}
    (hd : f.natDegree = mexp) (hd' : f'.natDegree = mexp) (hdim : Module.finrank (ZMod 2) S < 2 * mexp)
    (hx : ∃ x ∈ Full T O f, obs T O x ≠ 0) (hy : ∃ y ∈ Full T O f', obs T O y ≠ 0) : f = f' := by
  obtain ⟨x, hx, hx0⟩ := hx
  obtain ⟨y, hy, hy0⟩ := hy
  by_contra hne
  have hnd : ¬ f ∣ f' := fun h => hne (eq_of_dvd_dvd h ((hf.dvd_comm hf').1 h))
  have hc : IsCoprime f f' := hf.coprime_iff_not_dvd.2 hnd
  obtain ⟨g, h, hg, hh, hgh, e⟩ := dependent (T := T) hdim x y
  have hx' : obs T O (aeval T f x) = 0 := hx
  have hy' : obs T O (aeval T f' y) = 0 := hy
  have comm : ∀ (a b : (ZMod 2)[X]) (z : S), aeval T (a * b) z = aeval T b (aeval T a z) := fun a b z => by
    rw [mul_comm, map_mul, Module.End.mul_apply]
  rcases hgh with h0 | h0
  · refine hx0 (obs_ne hx (hc.mul_right (coprime_of_degree hf hd h0 hg)) ?_)
    rw [mul_comm, comm, e, ← comm, mul_comm, comm, ← aeval_obs, hy', map_zero]
  · refine hy0 (obs_ne hy (hc.symm.mul_right (coprime_of_degree hf' hd' h0 hh)) ?_)
    rw [mul_comm, comm, ← e, ← comm, mul_comm, comm, ← aeval_obs, hx', map_zero]

end MTT.Search

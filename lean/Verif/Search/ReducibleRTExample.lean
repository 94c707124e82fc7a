import Verif.Search.ReducibleRTProps
import Verif.Search.ReducibleExample

/-!
# C77: a case that meets the hypotheses, and a generator for which the combined search goes wrong

Both are the rotating register of three bits.  In the first the parity vector is kept beside the state; in the second
`setParityValue` writes it into the state, as `RMT64Search::setParityValue` (rmt64.hpp:121-124) does.
-/

namespace MTT.Parity.Toy

open Polynomial PIS Search Anni

theorem family : RFamily (π := Unit) rops (fun s u => some (s, u)) (fun s => (1, s.2)) (fun _ => True) (fun _ => True)
    (fun _ => ()) (fun s : St => Wd.of s.1) (fun _ => T) (fun _ => P) e P where
  wpos := by decide
  red _ _ := by
    have := redGen
    simpa using this
  weak _ _ := trivial
  setUp_inv _ _ _ _ _ _ := trivial
  seed_inv _ _ := ⟨trivial, rfl, by show _ ∈ M 3 e; rw [M_top]; exact Submodule.mem_top⟩
  seed_den _ _ _ _ _ := rfl

/-- The hypotheses of `rrtSearch_correct` are met. -/
example {mps : MPS} (hm : MinPolySeqSpec mps) {kernel : KernelFn} (hK : KernelSpec kernel) (noLsb : Bool) (fuel : ℕ)
    {res : RRTRes St Unit 32} (hres : rrtSearch mps kernel rops words32 (fun s u => some (s, u)) (fun s => (1, s.2)) some some
      noLsb fuel 1 3000 0 (fun _ => 0) (0, 0) () = some res) :
    ∃ o, res = .found o ∧ o.poly.natDegree = 2 := by
  obtain ⟨o, h1, h2⟩ := rrtSearch_correct hm hK family (by rw [Wd.finrank]; decide) (by decide) wordsOK32
    (fun _ _ _ => by simp) (fun s _ => ⟨s, rfl, Tempers.refl trivial⟩) (fun s _ => ⟨s, rfl, Tempers.refl trivial⟩)
    (fun _ _ _ => ⟨trivial, rfl, rfl⟩) (by decide) (N := 0) (fun s _ x _ hx0 => ⟨0, le_rfl, fun h => hx0 (by
      have h1 : bits (x.val.setWidth 32) = bits (0 : BitVec 32) := by rw [bits_zero]; exact h
      have h2 : ∀ x : BitVec 3, x.setWidth 32 = 0 → x = 0 := by decide +kernel
      exact h2 x (bits_inj h1))⟩) noLsb (by decide) (eqFuel := 3000) (by decide) 0 (fun _ => 0) () trivial hres
  exact ⟨o, h1, h2.deg⟩

end MTT.Parity.Toy

/-! ### A parity vector written into the state -/

namespace MTT.Parity.Toy2

open Polynomial PIS Search Anni Toy

/-- The certified word is the lower two bits of the register; as in rmt64.hpp:117-124 the parity vector is written there. -/
def rops : ROps (BitVec 3) 2 where
  generate s := (rot s, s.setWidth 2)
  generateV v s := (rot s, s.setWidth 2 &&& (BitVec.allOnes 2 <<< (2 - v)))
  add a b := a ^^^ b
  setZero _ := 0
  isZero s := s == 0
  bitSize := 3
  getParity s := s.setWidth 2
  setParity v s := (s &&& 4) ||| v.setWidth 3
  setOneBit k _ := (1 : BitVec 3) <<< k
  mexp := 2

/-- `calc_1pos` and `setBitOfPos` for words of two bits. -/
def words : WordOps 2 :=
  ⟨fun x => if x.getLsbD 0 then 1 else if x.getLsbD 1 then 0 else -1,
    fun k => if k = 0 then some 1 else if k = 1 then some 2 else none⟩

theorem wordsOK : WordsOK words where
  calc1pos u hu := by
    have key : ∀ u : BitVec 2, u ≠ 0 → ∃ i : Fin 2, words.calc1pos u = (i : ℕ) ∧ u.getMsbD i = true ∧
        ∀ j : Fin 2, i < j → u.getMsbD j = false := by decide +kernel
    obtain ⟨i, h1, h2, h3⟩ := key u hu
    refine ⟨i, h1, ?_⟩
    have hb : ∀ j, bits u j = if u.getMsbD j then 1 else 0 := fun _ => rfl
    refine ⟨?_, fun j hj => ?_⟩
    · rw [hb, h2]; decide
    · rw [hb]
      by_cases h : j < 2
      · rw [h3 ⟨j, h⟩ hj]; rfl
      · rw [BitVec.getMsbD_of_ge _ _ (by omega)]; rfl
  setPos k hk := by
    have : k = 0 ∨ k = 1 := by omega
    rcases this with rfl | rfl <;> rfl

def P : Wd 3 →ₗ[ZMod 2] V := linOf (fun x => bits (x.val.setWidth 2)) (fun x y => by
  rw [← bits_xor]
  congr 1
  have : ∀ a b : BitVec 3, (a ^^^ b).setWidth 2 = a.setWidth 2 ^^^ b.setWidth 2 := by decide +kernel
  exact this _ _)

theorem redGen : RedGen rops (fun _ => True) (fun s : BitVec 3 => Wd.of s) T P e P where
  gen_inv _ _ := trivial
  gen_den _ _ := rfl
  gen_out _ _ := rfl
  genV_inv _ _ _ _ _ := trivial
  genV_den _ _ _ _ _ := rfl
  genV_out v s _ hv _ := bits_and_mask _ hv
  add_inv _ _ _ _ := trivial
  add_den _ _ _ _ := rfl
  zero_inv _ _ := trivial
  zero_den _ _ := rfl
  one_inv _ _ _ _ := trivial
  one_den _ _ _ _ := rfl
  indep := indep
  closed x _ := by
    show T x ∈ M 3 e
    rw [M_top]; exact Submodule.mem_top
  inj x _ := by
    have : ∀ x : BitVec 3, rot x = 0 → x = 0 := by decide +kernel
    exact this x
  isZero_iff s _ _ := by
    show (s == 0) = true ↔ s = 0
    exact beq_iff_eq
  parity _ _ _ := rfl

theorem family : RFamily (π := Unit) rops (fun s u => some (s, u)) (fun _ => 4) (fun _ => True) (fun _ => True)
    (fun _ => ()) (fun s : BitVec 3 => Wd.of s) (fun _ => T) (fun _ => P) e P where
  wpos := by decide
  red _ _ := by simpa using redGen
  weak _ _ := trivial
  setUp_inv _ _ _ _ _ _ := trivial
  seed_inv _ _ := ⟨trivial, rfl, by show _ ∈ M 3 e; rw [M_top]; exact Submodule.mem_top⟩
  seed_den _ _ _ _ _ := rfl

/-- The lowest bit shows the whole state. -/
theorem visible {x : Wd 3} (h : ∀ i, ((T ^ i) x).val.getLsbD 0 = false) : x = 0 := by
  have key : ∀ x : BitVec 3, x.getLsbD 0 = false → (rot x).getLsbD 0 = false → (rot (rot x)).getLsbD 0 = false → x = 0 := by
    decide +kernel
  exact key x (h 0) (h 1) (h 2)

theorem f_dvd {p : (ZMod 2)[X]} (hp : Ann p (Search.bitAt rops.toGenOps 4 0)) : f ∣ p := by
  by_contra hnd
  have h3 : aeval T p (Wd.of (4 : BitVec 3)) = 0 := by
    apply visible
    intro i
    have h1 : (aeval shiftOp p (Search.bitAt rops.toGenOps 4 0)) i = 0 := by rw [ann_iff.1 hp]; rfl
    rw [bitAt_eq redGen.toLinGen trivial (by decide), aeval_outSeq] at h1
    have h2 : bits (((T ^ i) (aeval T p (Wd.of (4 : BitVec 3)))).val.setWidth 2) 1 = 0 := h1
    have key : ∀ y : BitVec 3, bits (y.setWidth 2) 1 = 0 → y.getLsbD 0 = false := by decide +kernel
    exact key _ h2
  obtain ⟨u, v, huv⟩ := (f_irr.coprime_iff_not_dvd).2 hnd
  have h4 : aeval T q (Wd.of (4 : BitVec 3)) = aeval T (u * (f * q) + q * v * p) (Wd.of (4 : BitVec 3)) := by
    rw [show u * (f * q) + q * v * p = q * (u * f + v * p) by ring, huv, mul_one]
  rw [map_add, LinearMap.add_apply, map_mul, Module.End.mul_apply, ann, map_zero, map_mul _ (q * v), Module.End.mul_apply, h3,
    map_zero, add_zero, q_apply] at h4
  revert h4
  decide +kernel

theorem obs_zero {x : Wd 3} (h : obs T P x = 0) : x = 0 := by
  apply visible
  intro i
  have h2 : bits (((T ^ i) x).val.setWidth 2) 1 = 0 := congrFun (congrFun h i) 1
  have key : ∀ y : BitVec 3, bits (y.setWidth 2) 1 = 0 → y.getLsbD 0 = false := by decide +kernel
  exact key _ h2

/-- The large component of the register: the states with an even number of ones. -/
theorem component : Component T P f (Wd.of (4 : BitVec 3)) = cyc T (Wd.of (3 : BitVec 3)) := by
  have hcyc : ∀ g : (ZMod 2)[X], aeval T g (Wd.of (3 : BitVec 3)) ∈ cyc T (Wd.of (3 : BitVec 3)) := fun g =>
    (mem_cyc T).2 ⟨g, rfl⟩
  apply le_antisymm
  · rintro x ⟨-, h2⟩
    have h3 : aeval T f x = 0 := obs_zero h2
    rw [f_apply] at h3
    have key : ∀ x : BitVec 3, rot (rot x) ^^^ rot x ^^^ x = 0 → x = 0 ∨ x = 3 ∨ x = rot 3 ∨ x = rot (rot 3) := by
      decide +kernel
    rcases key x h3 with h | h | h | h
    · rw [show x = 0 from h]; exact Submodule.zero_mem _
    · rw [show x = Wd.of (3 : BitVec 3) from h]; exact cyc_self T _
    · rw [show x = (T ^ 1) (Wd.of (3 : BitVec 3)) from h]; exact cyc_pow T (cyc_self T _) 1
    · rw [show x = (T ^ 2) (Wd.of (3 : BitVec 3)) from h]; exact cyc_pow T (cyc_self T _) 2
  · intro x hx
    obtain ⟨g, rfl⟩ := (mem_cyc T).1 hx
    refine ⟨(mem_cyc T).2 ⟨g * (X ^ 2 + X), ?_⟩, ?_⟩
    · rw [map_mul, Module.End.mul_apply]
      congr 1
      rw [map_add, map_pow, aeval_X]
      show (3 : BitVec 3) = rot (rot 4) ^^^ rot 4
      decide +kernel
    · show obs T P (aeval T f (aeval T g (Wd.of (3 : BitVec 3)))) = 0
      rw [← Module.End.mul_apply, ← map_mul, mul_comm, map_mul, Module.End.mul_apply]
      have : aeval T f (Wd.of (3 : BitVec 3)) = 0 := by rw [f_apply]; decide +kernel
      rw [this, map_zero, map_zero]

/-- The right sum of defects is 1. -/
theorem right_delta : IsDelta T P f (Wd.of (4 : BitVec 3)) 2 3 1 := by
  obtain ⟨r, h1, h2, -, h4⟩ := getAllEquidist_correct redGen.toLinGen (g := (3 : BitVec 3)) trivial (χ := f)
    (monic_of_ne f_irr.ne_zero) (by rw [f_apply]; decide +kernel) (by rw [f_deg]; decide) (stateBitSize := 3)
    (by rw [f_deg]; decide) wordsOK.calc1pos (bitLen := 2) (by decide) (by decide) (fuel := 100) (by rw [f_deg]; decide)
    (fun _ => 0)
  have hsum : (getAllEquidist rops.toGenOps words.calc1pos (3 : BitVec 3) 2 3 100 (fun _ => 0)).map (fun r => r.sum)
      = .ok 1 := by decide +kernel
  rw [h1] at hsum
  have hr : r.sum = 1 := Except.ok.inj hsum
  refine ⟨fun v => r.veq (v - 1), fun v hv1 hv2 => ?_, by rw [← hr]; exact h4⟩
  rw [component]
  exact h2 v hv1 hv2

theorem isDelta_unique {x : Wd 3} {d d' : ℤ} (h : IsDelta T P f x 2 3 d) (h' : IsDelta T P f x 2 3 d') : d = d' := by
  obtain ⟨k, h1, h2⟩ := h
  obtain ⟨k', h1', h2'⟩ := h'
  rw [h2, h2']
  apply Finset.sum_congr rfl
  intro v hv
  rw [Finset.mem_Icc] at hv
  rw [(h1 v hv.1 hv.2).unique (h1' v hv.1 hv.2)]

/-- **C77, a counterexample.**  If `setParityValue` writes into the state (as in `RMT64Search`), `search` can lose the large
component: on this register, with every minimal polynomial algorithm and every kernel algorithm that meet their
contracts, it returns `true` at once with the right factor, but it has set the state to zero and the sum of defects it delivers
is 4 instead of 1. -/
theorem wrong_delta {mps : MPS} (hm : MinPolySeqSpec mps) {kernel : KernelFn} (hK : KernelSpec kernel) (noLsb : Bool)
    (fuel : ℕ) (junk : BitVec 2) (veq0 : ℕ → ℕ) :
    ∃ o : RRTOut (BitVec 3) Unit 2, rrtSearch mps kernel rops words (fun s u => some (s, u)) (fun _ => 4) some some
      noLsb (fuel + 1) 4 100 junk veq0 0 () = some (.found o) ∧ o.poly = f ∧ o.rand = 0 ∧ o.delta = 4 ∧
      ¬ IsDelta T P f (Wd.of (4 : BitVec 3)) 2 3 o.delta := by
  obtain ⟨st, e1, e2, e3⟩ : ∃ st : RSt (BitVec 3) Unit, rFindLoop mps ⟨rops.toGenOps, fun s u => some (s, u), fun _ => 4⟩
      rops.mexp (1000 * rops.bitSize) (fuel + 1) ⟨0, (), 0, 0, 0⟩ = some (.ret true st) ∧ st.rand = 4 ∧
      st.irreducible = f := by
    rcases rTryOnce_red hm family (by decide) (⟨0, (), 0, 0, 0⟩ : RSt (BitVec 3) Unit) trivial with ⟨h1, -⟩ |
      ⟨r, src, st, b, -, h2, -, -, -, -, -, -, h9, h10, h11, h12⟩
    · cases h1
    · have hdeg : st.poly.natDegree < 2 * rops.mexp := by
        have h1 : st.poly ∣ f * q := h10.2.2 _ (by
          rw [bitAt_eq redGen.toLinGen trivial (by decide)]; exact ann_outSeq _ _ (ann _))
        have h2 := natDegree_le_of_dvd h1 (mul_ne_zero f_irr.ne_zero (by
          intro h0
          have := coprime
          rw [h0, isCoprime_zero_right] at this
          exact f_irr.not_isUnit this))
        have h3 : (f * q).natDegree ≤ 3 := (natDegree_mul_le).trans (by
          have : q.natDegree ≤ 1 := by unfold q; compute_degree
          rw [f_deg]; omega)
        show _ < 4
        omega
      obtain ⟨rfl, hir⟩ := h12 f f_irr f_deg (f_dvd h10.2.1) hdeg
      refine ⟨st, ?_, ?_, hir⟩
      · have hst : rStart mps (⟨rops.toGenOps, fun s u => some (s, u), fun _ => 4⟩ : SearchOps (BitVec 3) Unit 2) rops.mexp
            (1000 * rops.bitSize) ⟨0, (), 0, 0, 0⟩ = .ret true st := by
          show rStart _ _ _ (2999 + 1) _ = _
          rw [rStart]
          rw [show rTryOnce mps (⟨rops.toGenOps, fun s u => some (s, u), fun _ => 4⟩ : SearchOps (BitVec 3) Unit 2)
            rops.mexp ⟨0, (), 0, 0, 0⟩ = _ from h2]
        rw [rFindLoop, hst]
      · rw [h9]
        show stateAt rops.toGenOps 4 6 = 4
        decide +kernel
  have hroot : ∃ x ∈ M rops.bitSize e, x ≠ 0 ∧ aeval T f x = 0 := large
  obtain ⟨v, hv⟩ := searchParity_bounded redGen wordsOK hK f_irr f_deg hroot (by decide) (N := 3)
    (fun x _ hx0 => by
      by_contra hcon
      push Not at hcon
      apply hx0
      have key : ∀ x : BitVec 3, bits (x.setWidth 2) 1 = 0 → bits ((rot x).setWidth 2) 1 = 0 →
          bits ((rot (rot x)).setWidth 2) 1 = 0 → x = 0 := by decide +kernel
      exact key x (congrFun (hcon 0 (by omega)) 1) (congrFun (hcon 1 (by omega)) 1) (congrFun (hcon 2 (by omega)) 1))
    (fuel := 4) (by decide) junk (g := (4 : BitVec 3)) trivial
  obtain ⟨v1, -, v3⟩ := searchParity_orthogonal redGen wordsOK hK f_irr f_deg hroot trivial hv
  have hv3 : v = 3 := by
    have h7 := v3 (7 : BitVec 3) trivial ⟨Wd.of 1, by show _ ∈ M 3 e; rw [M_top]; exact Submodule.mem_top, by
      rw [f_apply]; decide +kernel⟩
    have key : ∀ v : BitVec 2, v ≠ 0 → dot ((7 : BitVec 3).setWidth 2) v = 0 → v = 3 := by decide +kernel
    exact key v v1 h7
  subst hv3
  -- the outputs of 111 are constant
  have hred : reducedCopy mps rops.toGenOps (7 : BitVec 3) f = some 0 := by
    obtain ⟨m, r, c1, c2, -, c4⟩ := calcCharPoly_correct hm redGen.toLinGen (fun x y hxy => by
      have : ∀ x y : BitVec 3, rot x = rot y → x = y := by decide +kernel
      exact this x y hxy) (s := (7 : BitVec 3)) trivial (by rw [Wd.finrank]; rfl) (poly := 1) (fun q _ => one_dvd _)
    have hq : r ∣ q := (c4 q).2 ⟨one_dvd _, fun pos hp => by
      rw [bitAt_eq redGen.toLinGen trivial hp]
      exact ann_outSeq _ _ (by rw [q_apply]; decide +kernel)⟩
    have hq0 : q ≠ 0 := by
      intro h0
      have := coprime
      rw [h0, isCoprime_zero_right] at this
      exact f_irr.not_isUnit this
    have hdeg : r.degree < f.degree := by
      rw [degree_eq_natDegree c2, degree_eq_natDegree f_irr.ne_zero, f_deg]
      have h1 := natDegree_le_of_dvd hq hq0
      have : q.natDegree ≤ 1 := by unfold q; compute_degree
      exact_mod_cast (by omega : r.natDegree < 2)
    unfold reducedCopy
    rw [c1]
    dsimp only
    rw [(Polynomial.div_eq_zero_iff f_irr.ne_zero).2 hdeg]
    have := (Lin.annihilate_correct redGen.toLinGen (0 : (ZMod 2)[X]) (g := stateAt rops.toGenOps (7 : BitVec 3) m) trivial).2
    rw [map_zero, LinearMap.zero_apply] at this
    exact congrArg some this
  have hsum : ((getAllEquidist rops.toGenOps words.calc1pos (0 : BitVec 3) 2 3 100 veq0).map fun r => ((0 : BitVec 3), r.sum))
      = .ok (0, 4) := by
    have h1 : ∀ b : ℕ → ℕ, ((getAllEquidist rops.toGenOps words.calc1pos (0 : BitVec 3) 2 3 100 b).map
      fun r => ((0 : BitVec 3), r.sum)) = .ok (0, 4) := fun b => by rfl
    exact h1 veq0
  refine ⟨⟨0, (), f, 3, polyWeight f, 4⟩, ?_, rfl, rfl, rfl, fun h => ?_⟩
  · unfold rrtSearch
    rw [e1]
    dsimp only
    rw [e2, e3, hv]
    dsimp only
    unfold afterParity
    rw [show rops.setParity 3 4 = (7 : BitVec 3) by decide +kernel, hred]
    dsimp only
    rw [show (if noLsb then some (0 : BitVec 3) else some 0) = some 0 by cases noLsb <;> rfl]
    dsimp only
    rw [show rops.bitSize = 3 from rfl, hsum]
  · exact absurd (isDelta_unique h right_delta) (by decide)

end MTT.Parity.Toy2

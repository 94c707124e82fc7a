import Verif.Samples.MT2Props
import Verif.GF2.MTPrim

/-!
# C87: parameters of maximal period are accepted, and MT19937 is found
-/

namespace MTT.MTDC

open Polynomial PIS Search Temper MTRec

variable {n r : ℕ}

/-- With a primitive polynomial that kills the transition every state that is not zero makes the lowest output bit
1 some time. -/
theorem low_bit {p : Par} (hP : (rec n r p).OK) (h2 : 2 ≤ p.pos) {mexp : ℕ} (h1 : 2 ≤ mexp)
    (hdim : Module.finrank (ZMod 2) (S n r) = mexp) {q : (ZMod 2)[X]} (hq : Primitive2 q mexp)
    (hT : ∀ y, aeval (T n r p) q y = 0) {z : S n r} (hz : z ≠ 0) :
    ∃ i, (out n r p ((T n r p ^ i) z)).getLsbD 0 = true := by
  by_contra hall
  rw [not_exists] at hall
  let B : S n r →ₗ[ZMod 2] ZMod 2 := (LinearMap.proj 31).comp (O n r p)
  have hB : ∀ y, B y = if (out n r p y).getLsbD 0 then 1 else 0 := by
    intro y
    show bits (out n r p y) 31 = _
    unfold bits
    rw [BitVec.getMsbD_eq_getLsbD]
    simp
  have hB0 : B ≠ 0 := by
    intro h0
    have : Finite (BitVec 32) := Finite.of_injective BitVec.toFin fun _ _ h => BitVec.toFin_inj.1 h
    obtain ⟨v, hv⟩ : ∃ v : BitVec 32, (temper p v).getLsbD 0 = true := by
      have hs : Function.Surjective (temper p) := Finite.injective_iff_surjective.1 (temper_injective p)
      obtain ⟨v, hv⟩ := hs 1
      exact ⟨v, by rw [hv]; decide⟩
    obtain ⟨y, hy⟩ := newest_surjective hP h2 (Wd.of v)
    have e1 : newWord (P := rec n r p) y = v := congrArg Wd.val hy
    have := LinearMap.congr_fun h0 y
    rw [hB] at this
    have e2 : out n r p y = temper p v := by unfold out; rw [e1]
    rw [e2, if_pos hv] at this
    exact one_ne_zero this
  have := (obs_period (by omega) hdim hq hT hB0 hz 1).1 fun k => by
    rw [hB, hB, if_neg (hall _), if_neg (hall _)]
  have h4 : 2 ^ 2 ≤ 2 ^ mexp := Nat.pow_le_pow_right (by omega) h1
  have := Nat.le_of_dvd one_pos this
  omega

/-- **C87**, acceptance.  If the first two numbers of the parameter source give, by `setUpParam`, a `pos` and `mata`
whose recurrence has a primitive characteristic polynomial, the program with `count` 1 and no bound on delta prints
one line with this `pos` and `mata`, and ends. -/
theorem main_finds {mps : MPS} (hmps : MinPolySeqSpec mps) {mexp : ℕ} (hmexp : mexp ∈ allowedMexp) {id : ℤ}
    (hid0 : 0 ≤ id) (hid1 : id ≤ 0xffff) (veq : ℕ → ℕ) (fuel turns : ℕ) {maxDelta : ℤ} (hmax : mexp * 32 ≤ maxDelta)
    (junkPos : ℕ) (junkA : BitVec 32) (junk f : ℕ → BitVec 32) {a : BitVec 32}
    (ha : a = (f 1 &&& 0xffff0000) ||| (BitVec.ofInt 32 id &&& 0xffff)) {p : ℕ}
    (hp : p = (f 0).toNat % (mexp / 32 - 1) + 2) {q : (ZMod 2)[X]} (hq : Primitive2 q mexp)
    (hT : ∀ y, aeval (MTRec.T ⟨mexp / 32 + 1, p, 32 - mexp % 32, a⟩) q y = 0) :
    ∃ l, main mps (Period.primitivityOp none) veq (fuel + 1) (turns + 2) mexp id 1 maxDelta junkPos junkA junk f =
      some (some [l]) ∧ l.pos = p ∧ l.mata = a ∧ GoodLine mexp id maxDelta l := by
  have htab : ∀ e ∈ allowedMexp, e ∈ Period.mersenneExponent ∧ e ≤ 216091 ∧ e % 32 ≠ 0 ∧ 64 ≤ e := by decide +kernel
  obtain ⟨t1, t2, t3, t4⟩ := htab mexp hmexp
  have hprim : PrimOK (Period.primitivityOp none) mexp := primOK_mersenne (Mexp.table_prime mexp t1 t2)
  obtain ⟨n, hn⟩ : ∃ n, n = mexp / 32 + 1 := ⟨_, rfl⟩
  obtain ⟨r, hr⟩ : ∃ r, r = 32 - mexp % 32 := ⟨_, rfl⟩
  have hm : mexp + r = 32 * n := by omega
  have e : (mexp / 32 + 1) * 32 - mexp = r := by omega
  obtain ⟨g, hg⟩ : ∃ g, ctor mexp id 1 junkPos junkA junk = some g := by
    unfold ctor
    dsimp only
    rw [e, if_pos (by omega)]
    exact ⟨_, rfl⟩
  have hgi : SInv n r id { g with pos := 2 } ∧ g.id = id ∧ g.size = n := by
    unfold ctor at hg
    dsimp only at hg
    rw [e, if_pos (by omega)] at hg
    injection hg with hg
    subst hg
    refine ⟨⟨⟨hn.symm, ?_, by omega, ?_, rfl, rfl, by show 1 ≤ 2; omega, by show 2 < n; omega⟩, rfl, rfl⟩, rfl, hn.symm⟩
    · show mexp + r = _; omega
    · show mexp / 32 + 1 - 1 < n; omega
  obtain ⟨hgi, hgid, hgs⟩ := hgi
  have F := family hm (by omega) (show 3 ≤ n by omega) id
  rw [← hn, ← hr] at hT
  -- the parameters
  have hsu : setUpParam (f 0) (f 1) { g with pos := 2 } = some { g with pos := p, mata := a } := by
    unfold setUpParam
    have h0 : g.size - 2 = mexp / 32 - 1 := by omega
    dsimp only
    rw [h0, if_neg (by omega), hgid, if_pos hid0, ← hp, ← ha]
  have hpn : 2 ≤ p ∧ p < n := by
    have := Nat.mod_lt (f 0).toNat (show 0 < mexp / 32 - 1 by omega)
    omega
  have hinv : SInv n r id { g with pos := p, mata := a } := by
    have hi := hgi.inv
    exact ⟨⟨hi.size, hi.mexp, hi.rlt, hi.index, hi.upper, hi.lower, by show 1 ≤ p; omega, hpn.2⟩, hgi.rev, hgi.id⟩
  have hOK := rec_ok hinv.inv
  have hT' : ∀ y, aeval (T n r (par { g with pos := p, mata := a })) q y = 0 := hT
  have hMax : MaxPeriod (searchOps mexp) (SInv n r id) par (den n r) (par { g with pos := p, mata := a }) mexp := by
    intro s hs hpar h0 k
    rw [(stateAt_spec (F.lin _) (g := s) ⟨hs, hpar⟩ k).2]
    exact period_of_primitive (by omega) hq (hT' _) h0 k
  have hbit : ∃ i, (outAt (searchOps mexp).gen ((searchOps mexp).seedOne { g with pos := p, mata := a }) i).getLsbD 0 =
      true := by
    obtain ⟨i, hi⟩ := low_bit (p := par { g with pos := p, mata := a }) hOK hpn.1 (mexp := mexp) (by omega) F.dim hq hT'
      (seed_ne_zero hinv.inv)
    refine ⟨i, ?_⟩
    have h1 := seed_inv hinv.inv 1
    have e3 := outAt_spec (F.lin (par { g with pos := p, mata := a })) (g := seed 1 { g with pos := p, mata := a })
      ⟨F.seed_inv _ hinv, h1.2⟩ i
    have e4 : outAt (searchOps mexp).gen (seed 1 { g with pos := p, mata := a }) i =
        out n r (par { g with pos := p, mata := a })
          ((T n r (par { g with pos := p, mata := a }) ^ i) (den n r (seed 1 { g with pos := p, mata := a }))) :=
      bits_inj e3
    have e5 : (outAt (searchOps mexp).gen ((searchOps mexp).seedOne { g with pos := p, mata := a }) i) =
      outAt (searchOps mexp).gen (seed 1 { g with pos := p, mata := a }) i := rfl
    rw [e5, e4]
    exact hi
  -- the first try succeeds
  have htry := tryOnce_correct hmps F hprim (⟨{ g with pos := 2 }, f, 0, 0⟩ : Search.St St (ℕ → BitVec 32)) hgi
  have hsu' : (searchOps mexp).setUp { g with pos := 2 } f = some ({ g with pos := p, mata := a }, fun k => f (k + 2)) := by
    show Option.map _ _ = _
    rw [hsu]
    rfl
  rcases htry with ⟨h1, -⟩ | ⟨r0, src, st', b, h1, h2, -, h4, h5, h6, h7, h8, -⟩
  · rw [hsu'] at h1; cases h1
  rw [hsu'] at h1
  injection h1 with h1
  injection h1 with h1 h1'
  subst h1 h1'
  have hb : b = true := h8.2 ⟨hMax, hbit⟩
  subst hb
  have hstart : ∀ m, start mps (searchOps mexp) (Period.primitivityOp none) (m + 1) ⟨{ g with pos := 2 }, f, 0, 0⟩ =
      .ret true st' := fun m => by
    unfold start
    rw [h2]
  -- the call of `search`
  obtain ⟨u, u1, u2⟩ := temper_spec veq hm (by omega) st'.rand h6.inv h6.rev
  have hu : SInv n r id { st'.rand with maskb := u 0, maskc := u 1 } := ⟨masks_inv h6.inv _ _, h6.rev, h6.id⟩
  have hmx : st'.rand.mexp = mexp := by have := h6.inv.mexp; omega
  obtain ⟨d, d1, d2⟩ := measure_le veq hu.inv (by show 1 ≤ st'.rand.mexp; omega) (L := 32) (by omega) le_rfl
  have hcall : rtCall mps (Period.primitivityOp none) veq (fuel + 1) mexp g f =
      some (.found ⟨{ st'.rand with maskb := u 0, maskc := u 1 }, st'.src, st'.poly, polyWeight st'.poly, d⟩) := by
    unfold rtCall
    rw [rtSearch_congr (s' := { g with pos := 2 }) (fun src => by
      show (setUpParam _ _ g).map _ = Option.map _ _
      rw [← setUpParam_pos _ _ g 2]) (by show 1 ≤ mexp; omega)]
    obtain ⟨m, hm'⟩ : ∃ m, 1000 * mexp = m + 1 := ⟨1000 * mexp - 1, by omega⟩
    unfold rtSearch findLoop
    rw [show 1000 * (searchOps mexp).gen.bitSize = m + 1 from hm', hstart]
    dsimp only
    rw [if_pos rfl]
    dsimp only
    rw [u1]
    dsimp only
    rw [d1]
  obtain ⟨o, ho, -, hl⟩ := rtCall_correct hmps hprim hm hn hr t3 (by omega) hid0 hid1 veq (fuel + 1) g hgi f hcall
  injection ho with ho
  subst ho
  have hdm : d ≤ maxDelta := by
    have : d ≤ (st'.rand.mexp : ℤ) * 32 := d2
    rw [hmx] at this
    omega
  refine ⟨_, ?_, congrArg Par.pos h7, congrArg Par.mata h7, hl maxDelta hdm⟩
  unfold main
  rw [hg]
  dsimp only
  unfold mainLoop
  rw [if_pos (by omega), hcall]
  dsimp only
  rw [if_neg (by omega)]
  unfold mainLoop
  rw [if_neg (by omega)]

/-- The program finds MT19937: called with the exponent 19937 and the identifier 45279 = 0xb0df, if the parameter
source first delivers 395 and a number whose upper half is 0x9908. -/
theorem finds_mt19937 {mps : MPS} (hmps : MinPolySeqSpec mps) (veq : ℕ → ℕ) (junkPos : ℕ) (junkA : BitVec 32)
    (junk f : ℕ → BitVec 32) (h0 : f 0 = 395) (h1 : f 1 &&& 0xffff0000 = 0x99080000) {mexp : ℕ} (hmexp : mexp = 19937) :
    ∃ l, main mps (Period.primitivityOp none) veq 1 2 mexp 45279 1 (2 ^ 31 - 1) junkPos junkA junk f = some (some [l]) ∧
      l.pos = 397 ∧ l.mata = 0x9908b0df ∧ GoodLine mexp 45279 (2 ^ 31 - 1) l := by
  refine main_finds hmps (by rw [hmexp]; decide) (by omega) (by omega) veq 0 0 (by rw [hmexp]; norm_num) junkPos junkA junk f
    (by rw [h1]; decide) (by rw [h0, hmexp]; rfl) (GF2.MT32.primitive hmexp) ?_
  rw [hmexp]
  exact aeval_charPoly MT.P32_ok (by decide) (by decide) (by decide)

/-- Such a run exists. -/
example : ∃ mps l, main mps (Period.primitivityOp none) (fun _ => 0) 1 2 19937 45279 1 (2 ^ 31 - 1) 0 0 (fun _ => 0)
    (fun k => if k = 0 then 395 else 0x99081234) = some (some [l]) ∧ l.pos = 397 ∧ l.mata = 0x9908b0df := by
  obtain ⟨mps, h⟩ := minPolySeqSpec_sat
  obtain ⟨mexp, hm⟩ : ∃ m, m = 19937 := ⟨_, rfl⟩
  obtain ⟨l, h1, h2, h3, -⟩ := finds_mt19937 h (fun _ => 0) 0 0 (fun _ => 0)
    (fun k => if k = 0 then 395 else 0x99081234) rfl (by decide) hm
  rw [hm] at h1
  exact ⟨mps, l, h1, h2, h3⟩

end MTT.MTDC

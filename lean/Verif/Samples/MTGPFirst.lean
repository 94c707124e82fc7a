import Verif.Samples.FirstProps
import Verif.Search.FirstRT
import Verif.Temper.Rel

/-!
# Lemmas for C120: what `MTGP32dc` finds and the numbers of its parameter source
-/

namespace MTT.MTGP

open Polynomial PIS Search Temper RingHi
open MTRec (upper)

variable {n r : ℕ}

/-! ### The specification -/

/-- The recurrence with these parameters, `n` words of which `r` bits are unused, has the greatest possible period: a state that
is not zero comes back exactly after the multiples of `2^(32 n - r) - 1` steps. -/
def Full (n r : ℕ) (p : Par) : Prop :=
  ∀ z : S 32 n r, z ≠ 0 → ∀ N, (T n r p ^ N) z = z ↔ 2 ^ (32 * n - r) - 1 ∣ N

/-- Parameter set number `i` of the source for `id`. -/
def setAt (n : ℕ) (id : BitVec 32) (f : ℕ → BitVec 32) (i : ℕ) : Par :=
  cand n id (fun _ => 0) (fun _ => 0) (from_ f (5 * i))

/-- An object in which nothing is left to chance: the parameters `p`, no tempering, seeded with 1. -/
def fresh (mexp : ℕ) (p : Par) : St :=
  seed 1 ⟨mexp, p.pos, p.sh1, p.sh2, 0, upper 32 (32 - mexp % 32), p.tbl, comb p.tbl, fun _ => 0, fun _ => 0, mexp / 32 + 1, 0,
    false, 0, fun _ => 0⟩

/-- Nothing uninitialised: everything is 0. -/
def noJunk : Junk := ⟨0, 0, 0, 0, fun _ => 0, 0, fun _ => 0⟩

/-- The tempering table and the defect that the two tempering searches and `get_all_equidist` give for this object. -/
def best (mexp : ℕ) (p : Par) : Option ((ℕ → BitVec 32) × ℤ) :=
  (partialBitPattern (temperOps noJunk mexp) stlsb32 10 (fresh mexp p)).bind fun t =>
    (partialBitPattern (temperOps noJunk mexp) st32 24 t).bind fun u =>
      (measure noJunk 32 u).map fun d => (u.tmp, d)

/-! ### Periods -/

theorem maxPeriod_iff {mexp : ℕ} (hm : mexp + r = 32 * n) (hr : r < 32) (hn : SizeOK n) (hn1 : 1 < n) (id : BitVec 32) {s : St}
    (hs : SInv n r id s) :
    MaxPeriod (searchOps mexp) (SInv n r id) par (den n r) (par s) mexp ↔ Full n r (par s) := by
  have F := family hm hr hn hn1 id
  have hb : 32 * n - r = mexp := by omega
  unfold Full
  rw [hb]
  constructor
  · intro h y hy k
    obtain ⟨t, t1, t2, t3⟩ := exists_den hs.inv y
    have ht : SInv n r id { t with id := id } := ⟨⟨t1.size, t1.mexp, t1.rlt, t1.idx, t1.mask, t1.pos2, t1.posn, t1.p, t1.tp⟩,
      (congrArg Par.rev t2).trans hs.rev, rfl⟩
    have := h { t with id := id } ht t2 (by
      show den n r t ≠ 0
      rw [t3]; exact hy) k
    rw [(stateAt_spec (F.lin (par s)) (g := { t with id := id }) ⟨ht, t2⟩ k).2] at this
    rwa [show den n r { t with id := id } = y from t3] at this
  · intro h t ht hp h0 k
    rw [(stateAt_spec (F.lin (par s)) (g := t) ⟨ht, hp⟩ k).2]
    exact h _ h0 k

/-- Some output after `seed(1)` is odd, if there is no tempering yet. -/
theorem odd_output {mexp : ℕ} (hm : mexp + r = 32 * n) (hr : r < 32) (hn : SizeOK n) (hn1 : 2 < n) (id : BitVec 32) {s : St}
    (hs : SInv n r id s) (htm : s.tmp = fun _ => 0) (hfull : Full n r (par s)) :
    ∃ i, (outAt (searchOps mexp).gen ((searchOps mexp).seedOne s) i).getLsbD 0 = true := by
  have F := family hm hr hn (by omega) id
  have h1 : 1 ≤ mexp := by omega
  have hb : 32 * n - r = mexp := by omega
  have h0 := seed_ne_zero hs.inv
  unfold Full at hfull
  rw [hb] at hfull
  by_contra hno
  rw [not_exists] at hno
  have htop : cyc (T n r (par s)) (den n r (seed 1 s)) = ⊤ := cyc_top h1 F.dim h0 (hfull _ h0)
  have hfin : Finite (S 32 n r) := Module.finite_of_finite (ZMod 2)
  have hinj : Function.Injective (T n r (par s)) := by
    rw [← LinearMap.ker_eq_bot, LinearMap.ker_eq_bot']
    intro z hz
    by_contra hne
    have := (hfull z hne (2 ^ mexp - 1)).2 dvd_rfl
    obtain ⟨k, hk⟩ : ∃ k, 2 ^ mexp - 1 = k + 1 := ⟨2 ^ mexp - 2, by have := Nat.one_lt_two_pow (n := mexp) (by omega); omega⟩
    rw [hk, pow_succ, Module.End.mul_apply, hz, map_zero] at this
    exact hne this.symm
  obtain ⟨y, hy⟩ := (Finite.injective_iff_surjective.1 hinj) (0, fun _ => Wd.of 1)
  have e1 : newOf (par s) y = 1 := by
    have := congrFun (congrArg Prod.snd hy) ⟨n - 2, by omega⟩
    have h2 : (if h : (n - 2 : ℕ) + 1 < n - 1 then y.2 ⟨n - 2 + 1, h⟩ else Wd.of (newOf (par s) y)) = Wd.of 1 := this
    rw [dif_neg (by omega)] at h2
    exact congrArg Wd.val h2
  have e2 : out (par s) y = 1 := by
    have : comb (par s).tmp (fold4 (word y ((par s).pos - 1)) &&& 0x0f).toNat = 0 := by
      show comb s.tmp _ = 0
      rw [htm]
      simp [comb]
    unfold out
    rw [this, e1]
    rfl
  have hle : cyc (T n r (par s)) (den n r (seed 1 s)) ≤ LinearMap.ker (coord 32 0 (O n r (par s))) := by
    refine Submodule.span_le.2 ?_
    rintro _ ⟨j, rfl⟩
    have := congrFun (bitAt_eq (F.lin (par s)) (s := seed 1 s) ⟨F.seed_inv s hs, F.seed_par s hs⟩ F.wpos) j
    refine this.symm.trans ?_
    exact if_neg (hno j)
  have hyk : y ∈ LinearMap.ker (coord 32 0 (O n r (par s))) := hle (htop ▸ Submodule.mem_top)
  have e3 : bits (out (par s) y) 31 = 0 := hyk
  rw [e2] at e3
  revert e3
  unfold bits
  decide

theorem qualifies_iff {mexp : ℕ} (hm : mexp + r = 32 * n) (hr : r < 32) (hn : SizeOK n) (hn1 : 2 < n) (id : BitVec 32) {s : St}
    (hs : SInv n r id s) (htm : s.tmp = fun _ => 0) :
    Qualifies (searchOps mexp) (SInv n r id) par (den n r) (par s) ↔ Full n r (par s) := by
  have e := maxPeriod_iff hm hr hn (by omega) id hs
  unfold Qualifies
  constructor
  · intro h
    exact e.1 h.1
  · intro h
    exact ⟨e.2 h, s, hs, rfl, odd_output hm hr hn hn1 id hs htm h⟩

/-! ### The tempering search -/

/-- Objects that differ only in what a tempering search cannot notice. -/
structure Alike (n r : ℕ) (p : Par) (s t : St) : Prop where
  inv : Inv n r s
  inv' : Inv n r t
  par_eq : par s = par t
  ne : den n r s ≠ 0
  ne' : den n r t ≠ 0
  trans : T n r (par s) = T n r p

theorem measure_same (J J' : Junk) {p : Par} {s t : St} (h : Alike n r p s t) (hfull : Full n r p) :
    measure J 32 s = measure J' 32 t := by
  have hm := h.inv.mexp
  have hm' := h.inv'.mexp
  have h2 := h.inv.pos2
  have hn := h.inv.posn
  have hr := h.inv.rlt
  have em : t.mexp = s.mexp := by omega
  have hb : 32 * n - r = s.mexp := by omega
  have hdim : Module.finrank (ZMod 2) (S 32 n r) = s.mexp := finrank_S h.inv
  unfold Full at hfull
  rw [hb, ← h.trans] at hfull
  obtain ⟨d, a1, k, a2, a3⟩ := measure_spec J h.inv
  obtain ⟨d', b1, k', b2, b3⟩ := measure_spec J' h.inv'
  have hrev : t.rev = s.rev := (congrArg Par.rev h.par_eq).symm
  rw [cyc_top (by omega) hdim h.ne (hfull _ h.ne)] at a2
  rw [← h.par_eq, cyc_top (by omega) hdim h.ne' (hfull _ h.ne'), hrev] at b2
  rw [a1, b1, a3, b3, em]
  congr 1
  refine Finset.sum_congr rfl fun v hv => ?_
  rw [Finset.mem_Icc] at hv
  rw [(a2 v hv.1 hv.2).unique (b2 v hv.1 hv.2)]

theorem related (J J' : Junk) {mexp : ℕ} {p : Par} (hfull : Full n r p) :
    Related (temperOps J mexp) (temperOps J' mexp) 32 (Alike n r p) where
  pat s t m q i h := by
    refine ⟨setUp_inv h.inv _, setUp_inv h.inv' _, ?_, h.ne, h.ne', h.trans⟩
    have e := h.par_eq
    have e1 := congrArg Par.pos e
    have e2 := congrArg Par.sh1 e
    have e3 := congrArg Par.sh2 e
    have e4 := congrArg Par.tbl e
    have e5 : s.tmp = t.tmp := congrArg Par.tmp e
    have e6 := congrArg Par.rev e
    show Par.mk s.pos s.sh1 s.sh2 s.tbl (Function.update s.tmp i ((s.tmp i &&& ~~~ m) ||| (q &&& m))) s.rev =
      Par.mk t.pos t.sh1 t.sh2 t.tbl (Function.update t.tmp i ((t.tmp i &&& ~~~ m) ||| (q &&& m))) t.rev
    rw [e5]
    exact Par.mk.injEq .. |>.mpr ⟨e1, e2, e3, e4, rfl, e6⟩
  setRev s t h := by
    refine ⟨⟨h.inv.size, h.inv.mexp, h.inv.rlt, h.inv.idx, h.inv.mask, h.inv.pos2, h.inv.posn, h.inv.p, h.inv.tp⟩,
      ⟨h.inv'.size, h.inv'.mexp, h.inv'.rlt, h.inv'.idx, h.inv'.mask, h.inv'.pos2, h.inv'.posn, h.inv'.p, h.inv'.tp⟩, ?_, h.ne,
      h.ne', h.trans⟩
    exact congrArg (fun q : Par => { q with rev := true }) h.par_eq
  resetRev s t h := by
    refine ⟨⟨h.inv.size, h.inv.mexp, h.inv.rlt, h.inv.idx, h.inv.mask, h.inv.pos2, h.inv.posn, h.inv.p, h.inv.tp⟩,
      ⟨h.inv'.size, h.inv'.mexp, h.inv'.rlt, h.inv'.idx, h.inv'.mask, h.inv'.pos2, h.inv'.posn, h.inv'.p, h.inv'.tp⟩, ?_, h.ne,
      h.ne', h.trans⟩
    exact congrArg (fun q : Par => { q with rev := false }) h.par_eq
  delta s t h := measure_same J J' h hfull
  size := rfl
  count := rfl

/-- They are found from every other object with these parameters that is not zero, whatever is not initialised. -/
theorem best_spec {mexp : ℕ} (hm : mexp + r = 32 * n) (hn : n = mexp / 32 + 1) (hr : r = 32 - mexp % 32) (hr32 : r < 32) {s : St}
    (hs : Inv n r s) (hrev : s.rev = false) (htm : s.tmp = fun _ => 0) (h0 : den n r s ≠ 0) (hfull : Full n r (par s)) :
    ∃ tm d, best mexp (par s) = some (tm, d) ∧ ∀ J, ∃ t u,
      partialBitPattern (temperOps J mexp) stlsb32 10 s = some t ∧ partialBitPattern (temperOps J mexp) st32 24 t = some u ∧
      measure J 32 u = some d ∧ SameRec s u ∧ u.tmp = tm := by
  have hb : Inv n r ⟨mexp, s.pos, s.sh1, s.sh2, 0, upper 32 (32 - mexp % 32), s.tbl, comb s.tbl, fun _ => 0, fun _ => 0,
      mexp / 32 + 1, 0, false, 0, fun _ => 0⟩ :=
    ⟨hn.symm, hm, hr32, by show 0 < n; omega, by rw [hr], hs.pos2, hs.posn, fun _ _ => rfl, fun i _ => by simp [comb]⟩
  have hgi : Inv n r (fresh mexp (par s)) := (seed_inv hb 1).1
  have hg0 : den n r (fresh mexp (par s)) ≠ 0 := seed_ne_zero hb
  have hgp : par (fresh mexp (par s)) = par s := by
    show Par.mk s.pos s.sh1 s.sh2 s.tbl (fun _ => 0) false = Par.mk s.pos s.sh1 s.sh2 s.tbl s.tmp s.rev
    rw [hrev, htm]
  have hst : ∀ J (P : PBPar), P.bitLen = 32 → P.paramNum = 4 → P.tryLen ≤ 32 → 1 ≤ P.step → P.step < 31 →
      ∀ s, Inv n r s → s.rev = false → ∃ t, partialBitPattern (temperOps J mexp) P (P.tryLen + 1) s = some t ∧
        Inv n r t ∧ t.rev = false ∧ SameRec s t := fun J P p1 p2 p3 p4 p5 s hs hv => by
    obtain ⟨t, t1, t2, t3, -⟩ := st_spec J hm P p1 p2 p3 p4 p5 s hs hv
    have t2' := t2
    unfold SameRec at t2
    exact ⟨t, t1, t3, by rw [t2]; exact hv, t2'⟩
  have h1 := fun J => hst J stlsb32 rfl rfl (by decide) (by decide) (by decide)
  have h2 := fun J => hst J st32 rfl rfl (by decide) (by decide) (by decide)
  obtain ⟨t0, a1, a2, a3, a4⟩ := h1 noJunk _ hgi rfl
  obtain ⟨u0, b1, b2, b3, b4⟩ := h2 noJunk _ a2 a3
  obtain ⟨d, c1, -⟩ := measure_spec noJunk b2
  have a1' : partialBitPattern (temperOps noJunk mexp) stlsb32 10 (fresh mexp (par s)) = some t0 := a1
  have b1' : partialBitPattern (temperOps noJunk mexp) st32 24 t0 = some u0 := b1
  refine ⟨u0.tmp, d, ?_, fun J => ?_⟩
  · unfold best
    rw [a1', Option.bind_some, b1', Option.bind_some, c1]
    rfl
  · obtain ⟨t, e1, e2, e3, e4⟩ := h1 J s hs hrev
    obtain ⟨u, f1, f2, f3, f4⟩ := h2 J t e2 e3
    have e1' : partialBitPattern (temperOps J mexp) stlsb32 10 s = some t := e1
    have f1' : partialBitPattern (temperOps J mexp) st32 24 t = some u := f1
    have k0 : Alike n r (par s) s (fresh mexp (par s)) := ⟨hs, hgi, hgp.symm, h0, hg0, rfl⟩
    have k1 := partialBitPattern_rel (P := stlsb32) (related J noJunk (mexp := mexp) hfull) 10 k0
    rw [e1', a1'] at k1
    have k1' : Alike n r (par s) t t0 := k1
    have k2 := partialBitPattern_rel (P := st32) (related J noJunk (mexp := mexp) hfull) 24 k1'
    rw [f1', b1'] at k2
    have k2' : Alike n r (par s) u u0 := k2
    refine ⟨t, u, e1', f1', (measure_same J noJunk k2' hfull).trans c1, ?_, congrArg Par.tmp k2'.par_eq⟩
    unfold SameRec at e4 f4 ⊢
    rw [e4] at f4
    exact f4

end MTT.MTGP

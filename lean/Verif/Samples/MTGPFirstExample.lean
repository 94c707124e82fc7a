import Verif.Samples.MTGPFirstProps
import Verif.GF2.Cert
import Verif.Mexp.Props

/-!
# C120: runs of `MTGP32dc`
-/

namespace MTT.MTGP

open Polynomial PIS Search GF2

/-! ### Parameters of the greatest period, 521 bits of state -/

/-- The characteristic polynomial. -/
abbrev F521 : ℕ := 0x20001000208038c010401ce1bc93e443bd6e43fa64a41e751b05b10a1122adc876bce9de51e9f779a142277d47c45c35513a5e7f1e5f454b38c1ed4393f0e020303

theorem primitive521 {n : ℕ} (hn : n = 521) : Primitive2 (bitPoly (n + 1) F521) n := by
  have hp : (2 ^ n - 1).Prime := hn ▸ Mexp.table_prime 521 (by decide) (by decide)
  refine primitive_of_check (s := 10)
    (mu := 0x2000100028803cc03a6203d0b08b45750f07a968e2185d24512b6f242e292fb79907f1fa772e5929392d50b4068b03d290c40419eaf05fbe359ee73da06895ddcb1)
    (by decide) (by omega) (by omega) (Q := [2 ^ n - 1]) (fun q hq hd => ?_) ?_
  · rw [List.mem_singleton]; exact (Nat.prime_dvd_prime_iff_eq hq hp).1 hd
  · subst hn; decide +kernel

/-- The parameters. -/
abbrev p521 : Par := ⟨6, 13, 4, fun k => if k = 0 then 0xabec2357 else if k = 1 then 0xabac4a78 else if k = 2 then 0xebd00010
  else if k = 3 then 0x1729 else 0, fun _ => 0, false⟩

/-- A state. -/
abbrev z521 : RingHi.S 32 17 23 := (Wd.of 1, fun _ => Wd.of 0)

/-- Evaluates a state. -/
def f17 {α : Type} (s : RingHi.S 32 17 23) (k : RingHi.S 32 17 23 → α) : α :=
  fw s.1 fun z => fw (s.2 0) fun x0 => fw (s.2 1) fun x1 => fw (s.2 2) fun x2 => fw (s.2 3) fun x3 => fw (s.2 4) fun x4 => fw (s.2 5) fun x5 => fw (s.2 6) fun x6 => fw (s.2 7) fun x7 => fw (s.2 8) fun x8 => fw (s.2 9) fun x9 => fw (s.2 10) fun x10 => fw (s.2 11) fun x11 => fw (s.2 12) fun x12 => fw (s.2 13) fun x13 => fw (s.2 14) fun x14 => fw (s.2 15) fun x15 =>
    k (z, ![x0, x1, x2, x3, x4, x5, x6, x7, x8, x9, x10, x11, x12, x13, x14, x15])

theorem f17_eq {α : Type} (s : RingHi.S 32 17 23) (k : RingHi.S 32 17 23 → α) : f17 s k = k s := by
  unfold f17
  simp only [fw_eq]
  congr 1
  refine Prod.ext rfl ?_
  funext j
  fin_cases j <;> rfl

theorem ann521 : aeval (T 17 23 p521) (bitPoly (521 + 1) F521) z521 = 0 := by
  have h := ev_spec (T := T 17 23 p521) (fc := f17) (fun s k => f17_eq s k) (f := fun s => T 17 23 p521 s) (fun _ => rfl)
    (521 + 1) F521 z521 0
  rw [zero_add] at h
  rw [← h]
  decide +kernel

theorem full521 : Full 17 23 p521 := by
  intro y hy N
  obtain ⟨e, he⟩ : ∃ e, e = 521 := ⟨_, rfl⟩
  rw [show 32 * 17 - 23 = e by omega]
  have h0 : z521 ≠ 0 := by decide
  have hann : aeval (T 17 23 p521) (bitPoly (e + 1) F521) z521 = 0 := by rw [he]; exact ann521
  have hper := period_of_primitive (n := e) (by omega) (primitive521 he) hann h0
  have hdim : Module.finrank (ZMod 2) (RingHi.S 32 17 23) = e := by
    have := RingHi.finrank (w := 32) (n := 17) (r := 23) (by omega) (by omega)
    omega
  obtain ⟨k, -, rfl⟩ := orbit_all (by omega) hdim h0 hper hy
  refine period_of_primitive (n := e) (by omega) (primitive521 he) ?_ hy N
  rw [← aeval_X_pow (R := ZMod 2) (T 17 23 p521), ← Module.End.mul_apply, ← map_mul, mul_comm, map_mul, Module.End.mul_apply, hann,
    map_zero]

/-- With rows 2 and 1 the recurrence loses a state. -/
theorem not_full {p : Par} (h1 : p.sh1 = 13) (h2 : p.sh2 = 4) (hp : 2 ≤ p.pos) (hp' : p.pos < 17) (ht0 : p.tbl 0 = 2)
    (ht1 : p.tbl 1 = 1) :
    ¬ Full 17 23 p := by
  intro h
  obtain ⟨z, hz⟩ : ∃ z : RingHi.S 32 17 23, z = (Wd.of (MTRec.hi 23 (0xC000000 : BitVec 32)),
      fun j : Fin (17 - 1) => if (j : ℕ) = 0 then Wd.of 0x6003 else Wd.of 0) := ⟨_, rfl⟩
  have hne : z ≠ 0 := by rw [hz]; decide
  have hT : T 17 23 p z = 0 := by
    have w0 : RingHi.word z 0 = 0xC000000 := by rw [hz]; decide
    have w1 : RingHi.word z 1 = 0x6003 := by rw [hz]; decide
    have wp : RingHi.word z p.pos = 0 := by
      unfold RingHi.word
      rw [if_neg (by omega), dif_pos (by omega), hz]
      dsimp only
      rw [if_neg (by omega)]
      rfl
    have hnew : newOf p z = 0 := by
      unfold newOf new mat comb
      rw [w0, w1, wp, h1, h2, ht0, ht1]
      generalize p.tbl 2 = a
      generalize p.tbl 3 = b
      rw [if_neg (c := Nat.testBit _ 2 = true) (by decide), if_neg (c := Nat.testBit _ 3 = true) (by decide)]
      decide
    show RingHi.shift z (newOf p z) = 0
    rw [hnew, hz]
    decide
  obtain ⟨e, he⟩ : ∃ e, e = 521 := ⟨_, rfl⟩
  have := (h z hne (2 ^ (32 * 17 - 23) - 1)).2 dvd_rfl
  rw [show 32 * 17 - 23 = e by omega] at this
  obtain ⟨k, hk⟩ : ∃ k, 2 ^ e - 1 = k + 1 := ⟨2 ^ e - 2, by have := Nat.one_lt_two_pow (n := e) (by omega); omega⟩
  rw [hk, pow_succ, Module.End.mul_apply, hT, map_zero] at this
  exact hne this.symm

theorem setAt_not_full {n : ℕ} (hn : n = 17) (id : BitVec 32) {f : ℕ → BitVec 32} {i : ℕ} (h1 : f (5 * i + 1) = 2) (h2 : f (5 * i + 2) = 1) :
    ¬ Full n 23 (setAt n id f i) := by
  subst hn
  have hl : lastPos 17 = 7 := by decide
  refine not_full rfl rfl ?_ ?_ ?_ ?_
  · show 2 ≤ 3 + _ % (lastPos 17 - 2)
    omega
  · show 3 + _ % (lastPos 17 - 2) < 17
    rw [hl]; omega
  · show entry 0 (f (5 * i + 1)) = 2
    rw [h1]; decide
  · show entry 1 (f (5 * i + 2)) = 1
    rw [h2]; decide

/-- A source that begins with a set that cannot be taken, followed by the numbers of the parameters above: with count 1 and id 1
the program prints one line with these parameters, whatever is not initialised. -/
theorem line521 {mps : MPS} (hmps : MinPolySeqSpec mps) {prim : ℕ → (ZMod 2)[X] → Option Bool} {mexp : ℕ} (hmexp : mexp = 521)
    (hprim : PrimOK prim mexp) (J : ℕ → Junk) {fuel : ℕ} (hfuel : 1 ≤ fuel) (f : ℕ → BitVec 32) (h1 : f 1 = 2) (h2 : f 2 = 1)
    (h5 : f 5 = 3) (h6 : f 6 = 0xabec2357) (h7 : f 7 = 0xabac4a78) (h8 : f 8 = 0xebded950) (h9 : f 9 = 0x8deb1729) :
    ∃ l, lineAt mexp 1 f 1 = some l ∧ dcMain mps prim J fuel mexp f 1 1 = some (some [l]) ∧ l.pos = 6 ∧ l.tbl 2 = 0xebd00010 := by
  have hn : mexp / 32 + 1 = 17 := by omega
  have hr : 32 - mexp % 32 = 23 := by omega
  have hp : setAt 17 1 f 1 = p521 := by
    unfold setAt cand
    have hl : lastPos 17 = 7 := by decide
    have e0 : from_ f (5 * 1) 0 = 3 := h5
    have e1 : from_ f (5 * 1) 1 = 0xabec2357 := h6
    have e2 : from_ f (5 * 1) 2 = 0xabac4a78 := h7
    have e3 : from_ f (5 * 1) 3 = 0xebded950 := h8
    have e4 : from_ f (5 * 1) 4 = 0x8deb1729 := h9
    rw [e0, e1, e2, e3, e4, hl, show entry 0 0xabec2357 = 0xabec2357 by decide, show entry 1 0xabac4a78 = 0xabac4a78 by decide,
      show (entry 2 0xebded950 &&& (0xfff0000f : BitVec 32)) ^^^ (((1 : BitVec 32) <<< 4) &&& (0x000ffff0 : BitVec 32)) = 0xebd00010 by decide,
      show (entry 3 0x8deb1729 &&& (0x0000ffff : BitVec 32)) ^^^ ((1 : BitVec 32) &&& (0xffff0000 : BitVec 32)) = 0x1729 by decide]
    rfl
  have hfirst : IsFirst mexp 1 f 1 := by
    unfold IsFirst
    rw [hn, hr]
    refine ⟨by show Full 17 23 _; rw [hp]; exact full521, fun i hi => ?_⟩
    by_contra hlt
    obtain rfl : i = 0 := by omega
    exact setAt_not_full rfl 1 (i := 0) h1 h2 hi
  have hlt : 1 < fuel * (1000 * mexp) := by
    calc 1 < 1 * (1000 * mexp) := by omega
      _ ≤ _ := Nat.mul_le_mul_right _ hfuel
  obtain ⟨L, e1, e2⟩ := dcMain_first hmps hprim (by omega) (by rw [hn]; exact Or.inl ⟨by omega, by omega⟩) J fuel f 1 1 (fun _ => 1)
    fun i hi => ⟨hlt, by
      obtain rfl : i = 0 := by omega
      exact hfirst⟩
  have e2' : L.map some = [lineAt mexp 1 f 1] := e2
  obtain ⟨l, rfl⟩ : ∃ l, L = [l] := by
    rw [← List.length_eq_one_iff]
    have := congrArg List.length e2'
    rwa [List.length_map] at this
  have e3 : some l = lineAt mexp 1 f 1 := by
    injection e2'
  have e4 := e3
  unfold lineAt at e4
  dsimp only at e4
  generalize weightOf _ _ _ = wt at e4
  rw [hn, hp] at e4
  obtain ⟨q, -, e5⟩ := Option.map_eq_some_iff.1 e4.symm
  exact ⟨l, e3.symm, e1, by rw [← e5], by rw [← e5]; rfl⟩

/-- A source of which no set can be taken: the program does not stop. -/
example {mps : MPS} (hmps : MinPolySeqSpec mps) {prim : ℕ → (ZMod 2)[X] → Option Bool} {mexp : ℕ} (hmexp : mexp = 521)
    (hprim : PrimOK prim mexp) (J : ℕ → Junk) (fuel : ℕ) (f : ℕ → BitVec 32) (h1 : ∀ i, f (5 * i + 1) = 2)
    (h2 : ∀ i, f (5 * i + 2) = 1) (id : BitVec 32) : dcMain mps prim J fuel mexp f 1 id = none := by
  have hn : mexp / 32 + 1 = 17 := by omega
  have hr : 32 - mexp % 32 = 23 := by omega
  by_contra h
  obtain ⟨m, hm⟩ := (dcMain_ends hmps hprim (by omega) (by rw [hn]; exact Or.inl ⟨by omega, by omega⟩) J f 1 id).1 ⟨fuel, h⟩ 0 (by omega)
  rw [hn, hr] at hm
  exact setAt_not_full rfl _ (h1 m) (h2 m) hm

end MTT.MTGP

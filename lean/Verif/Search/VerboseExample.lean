import Verif.Search.ReducibleRTExample
import Verif.Samples.TinyMTVerboseProps
import Verif.Samples.MT2Props
import Verif.Samples.MTGPDCProps
import Verif.Samples.RMTDCLemmas

/-!
# Cases of C109
-/

namespace MTT.Verbose

open Polynomial PIS Search Temper Parity

/-- The sum of the defects does not depend on what the array held before. -/
theorem sum_any {σ : Type} {w : ℕ} (G : GenOps σ w) (calc1pos : BitVec w → ℤ) (g : σ) (bitLen sz fuel : ℕ) (a b : ℕ → ℕ) :
    (getAllEquidist G calc1pos g bitLen sz fuel a).toOption.map (·.sum) =
      (getAllEquidist G calc1pos g bitLen sz fuel b).toOption.map (·.sum) := by
  have key : ∀ v e (r q : EquidistResult), r.sum = q.sum → (allLoop G calc1pos (bitLen + 1) sz fuel v e r).toOption.map (·.sum) =
      (allLoop G calc1pos (bitLen + 1) sz fuel v e q).toOption.map (·.sum) := by
    intro v
    induction v with
    | zero => intro e r q h; exact congrArg some h
    | succ v ih =>
      intro e r q h
      rw [allLoop, allLoop]
      cases getEquidistMain (G.generateV (v + 1)) G.add G.bitSize calc1pos sz fuel (v + 1) (adjust G (bitLen + 1) (v + 1) e) with
      | error _ => rfl
      | ok x =>
        obtain ⟨e', k⟩ := x
        apply ih
        dsimp only
        rw [h]
  unfold getAllEquidist
  cases getEquidistMain (G.generateV bitLen) G.add G.bitSize calc1pos sz fuel bitLen (construct G g bitLen) with
  | error _ => rfl
  | ok x =>
    obtain ⟨e', k⟩ := x
    exact key _ _ _ _ rfl

/-- The register of the counterexample to C77 with a tempering search that does nothing. -/
def toyV : VOps (BitVec 3) where
  setRev := id
  resetRev := id
  str g := (g, ['*'])
  table veq g := (getAllEquidist Toy2.rops.toGenOps Toy2.words.calc1pos g 2 3 100 veq).toOption.map fun r => (r.veq, r.sum)
  width := 2
  mexp := 3

theorem toy_honest (veq0 : ℕ → ℕ) : Honest toyV (fun vb g => some (g, say vb .cout ['!'])) (fun vb g => some (g, say vb .cout ['?'])) true
    some some (fun g => ((getAllEquidist Toy2.rops.toGenOps Toy2.words.calc1pos g 2 3 100 veq0).toOption).map (·.sum))
    (fun _ => True) where
  same1 _ _ := rfl
  same2 _ _ := rfl
  quiet1 _ _ h := by cases h; rfl
  quiet2 _ _ h := by cases h; rfl
  table veq g := by
    rw [sum_any _ _ _ _ _ _ veq0 veq]
    show Option.map Prod.snd (Option.map _ _) = _
    rw [Option.map_map]; rfl
  total g _ := by
    rw [sum_any _ _ _ _ _ _ veq0 fun _ => 0]
    have : ∀ g : BitVec 3, ((getAllEquidist Toy2.rops.toGenOps Toy2.words.calc1pos g 2 3 100 fun _ => 0).toOption).map (·.sum) ≠ none := by
      decide +kernel
    exact this g
  keep1 _ _ _ _ := trivial
  keep2 _ _ _ _ := ⟨trivial, trivial, rfl⟩
  str _ _ := rfl

/-- `rrtSearch_same` for it: whatever the external algorithms are. -/
example (mps : MPS) (kernel : KernelFn) (t0 t1 t2 : List Char) (junk : BitVec 2) (veq veq0 : ℕ → ℕ) :
    (rrtSearchV mps kernel Toy2.rops Toy2.words (fun s u => some (s, u)) (fun _ => 4) toyV true
      (fun vb g => some (g, say vb .cout ['!'])) (fun vb g => some (g, say vb .cout ['?'])) true false t0 t1 t2 5 4 junk veq 0 ()).map
      Prod.fst =
    rrtSearch mps kernel Toy2.rops Toy2.words (fun s u => some (s, u)) (fun _ => 4) some some false 5 4 100 junk veq0 0 () :=
  (rrtSearch_same (toy_honest veq0) false t0 t1 t2 (by decide) 4 junk veq 0 () fun _ _ _ => ⟨trivial, fun _ _ _ _ _ => trivial⟩).1

/-- Two turns without success, ten sets each, and one with success. -/
def toyStart (n : ℕ) : Res ℕ := if n = 20 then .ret true 21 else .ret false (n + 10)

theorem toyStart_examines : Examines id toyStart 10 := by
  intro st b st' h
  unfold toyStart at h
  split at h
  · next h0 => cases h; subst h0; decide
  · cases h; rfl

example : findLoopV true toyStart 3 0 0 =
    some (.ret true 21, [(.os, "not found in 10000\n".toList), (.os, "not found in 20000\n".toList)]) := by
  have h1 : "not found in ".toList ++ Text.dec ((0 + 1) * 10000) ++ ['\n'] = "not found in 10000\n".toList := by decide +kernel
  have h2 : "not found in ".toList ++ Text.dec ((0 + 1 + 1) * 10000) ++ ['\n'] = "not found in 20000\n".toList := by decide +kernel
  rw [← h1, ← h2]
  rfl

/-- A search that never succeeds. -/
example : ∃ o, findLoopV true (fun n : ℕ => Res.ret false (n + 1)) 1000000 0 0 = some (.undef, o) ∧ o.length = 214748 :=
  findLoop_overflow (fun n => ⟨n + 1, rfl⟩) 214748 1000000 0 0 (by omega) (by omega)

/-- The text of the tempering search of tinymt32. -/
example (veq : ℕ → ℕ) (s : TinyMT.St) : ∃ t D o, partialBitPatternV (TinyMT.temperOps veq) TinyMT.st32 24 true s =
    some (TinyMT.resetReverse t, [(.cout, "searching...\n".toList), (.cout, "searching from MSB\n".toList)] ++ o ++
      [(.cout, "delta = ".toList ++ number D ++ "\n".toList)]) ∧ TinyMT.IsDefect t false D ∧
    Runs (TinyMT.temperOps veq) TinyMT.st32 [(0, 6, 0), (6, 6, 0), (12, 6, 0), (18, 5, 0)] (TinyMT.resetReverse s, 1000)
      (t, D) o := by
  obtain ⟨t, D, o, h1, -, h2, h3⟩ := partialBitPattern_says (TinyMT.temperContract veq) TinyMT.st32 rfl (by decide) (by decide)
    (by decide) (by decide) (by decide) (by decide) s trivial
  refine ⟨t, D, o, h1, ?_, h3⟩
  obtain ⟨d, h3, h4⟩ := TinyMT.measure_spec veq t
  have h5 : TinyMT.measure veq 32 t = some D := h2
  rw [h5, Option.some.injEq] at h3
  rw [h3]; exact h4

/-- The steps of the tempering search of rmt64dc: both masks in each of eleven windows. -/
example (veq : ℕ → ℕ) {n : ℕ} (s : RMT.St) (hs : RMT.Inv n s) : ∃ t D o,
    partialBitPatternV (RMT.temperOps veq n) RMT.st64 64 true s =
      some (RMT.resetReverse t, [(.cout, "searching...\n".toList), (.cout, "searching from MSB\n".toList)] ++ o ++
        [(.cout, "delta = ".toList ++ number D ++ "\n".toList)]) ∧
    Runs (RMT.temperOps veq n) RMT.st64 [(0, 6, 0), (0, 6, 1), (6, 6, 0), (6, 6, 1), (12, 6, 0), (12, 6, 1), (18, 6, 0),
      (18, 6, 1), (24, 6, 0), (24, 6, 1), (30, 6, 0), (30, 6, 1), (36, 6, 0), (36, 6, 1), (42, 6, 0), (42, 6, 1),
      (48, 6, 0), (48, 6, 1), (54, 6, 0), (54, 6, 1), (60, 3, 0), (60, 3, 1)] (RMT.resetReverse s, 1000) (t, D) o := by
  obtain ⟨t, D, o, h1, -, -, h3⟩ := partialBitPattern_says (RMT.temperContract (n := n) veq) RMT.st64 rfl (by decide)
    (by decide) (by decide) (by decide) (by decide) (by decide) s (show RMT.Inv n (RMT.resetReverse s) from ⟨hs.size, hs.index, hs.pos⟩)
  exact ⟨t, D, o, h1, h3⟩

/-- The steps of the tempering search of MTGP32dc: the four entries of the table in each of five windows. -/
example (J : MTGP.Junk) {n r mexp : ℕ} (hm : mexp + r = 32 * n) (s : MTGP.St) (hs : MTGP.Inv n r s) : ∃ t D o,
    partialBitPatternV (MTGP.temperOps J mexp) MTGP.st32 24 true s =
      some (MTGP.resetReverse t, [(.cout, "searching...\n".toList), (.cout, "searching from MSB\n".toList)] ++ o ++
        [(.cout, "delta = ".toList ++ number D ++ "\n".toList)]) ∧
    Runs (MTGP.temperOps J mexp) MTGP.st32 ([0, 5, 10, 15].flatMap (fun v => [(v, 5, 0), (v, 5, 1), (v, 5, 2), (v, 5, 3)]) ++
      [(20, 3, 0), (20, 3, 1), (20, 3, 2), (20, 3, 3)]) (MTGP.resetReverse s, 1000) (t, D) o := by
  obtain ⟨t, D, o, h1, -, -, h3⟩ := partialBitPattern_says (MTGP.temperContract J hm) MTGP.st32 rfl (by decide)
    (by decide) (by decide) (by decide) (by decide) (by decide) s (show MTGP.Inv n r (MTGP.resetReverse s) from
      ⟨hs.size, hs.mexp, hs.rlt, hs.idx, hs.mask, hs.pos2, hs.posn, hs.p, hs.tp⟩)
  exact ⟨t, D, o, h1, h3⟩

/-- The last lines of the tempering search of mt2. -/
example (veq : ℕ → ℕ) {n r mexp : ℕ} (hm : mexp + r = 32 * n) (h1 : 1 ≤ mexp) (s : MTDC.St) (hs : MTDC.Inv n r s) :
    ∃ (q : TempP 32) (D : ℤ) (o : Out), (bestBitsV (MTDC.temperOps veq mexp) MTDC.bb true s).map Prod.snd =
        some ([(.cout, "searching from MSB\n".toList)] ++ o ++ [deltaLine D]) ∧
      MTDC.measure veq MTDC.bb.limit { MTDC.temperOps veq mexp |>.resetRev s with maskb := q.param 0, maskc := q.param 1 } = some D := by
  obtain ⟨q, D, e1, -, e2⟩ := bestBits_says (MTDC.bbContract veq hm h1) (by decide) (by decide) (by decide) (by decide) (by decide) s hs
  refine ⟨q, _, _, by rw [e1]; rfl, ?_⟩
  have e3 : MTDC.measure veq MTDC.bb.limit (setAll (MTDC.temperOps veq mexp) q.param 2 0 ((MTDC.temperOps veq mexp).resetRev s)) =
      some (D (MTDC.bb.limit - 1)) := e2
  rw [MTDC.setAll_eq] at e3
  exact e3

/-- The run of `tinymt32dc -v` with the first two numbers. -/
example : ∃ mps : MPS, ∀ (c : ℕ → List Char × List Char × List Char) (t t' : List Char), ∃ L o,
    TinyMT.dcMain mps (Period.primitivityOp none) (fun _ => 0) 1 false 0 1 7 3 = some L ∧
      TinyMT.dcMainV mps (Period.primitivityOp none) (fun _ => 0) true c t t' 1 false 0 1 7 3 = some (L, o) ∧
      (TinyMT.writes 0 L).Sublist o := by
  obtain ⟨mps, hm⟩ := minPolySeqSpec_sat
  refine ⟨mps, fun c t t' => ?_⟩
  obtain ⟨L, o, h1, h2, h3, -⟩ := TinyMT.dcMainV_same hm (fun _ => 0) true c t t' 1 false 0 1 7 (fuel := 3) (by decide)
  exact ⟨L, o, h1, h2, h3⟩

end MTT.Verbose

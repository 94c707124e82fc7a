import Verif.Samples.Programs
import Verif.Samples.SFMTDCProps
import Verif.Samples.DSFMTDCProps
import Verif.Samples.RMTDCProps
import Verif.Samples.MT2Props
import Verif.Samples.TinyMTDCProps

/-!
# C91: the search programs from the command line
-/

namespace MTT.Options

open Polynomial Search Parity

/-! ### The numbers of the random source -/

/-- **C91.**  The numbers that sfmtdc, sfmtdcfixed and mt2 consume are those of MT19937 with the seed of the command line. -/
theorem stream32_eq (v : BitVec 32) (x : ℕ → BitVec 32) (hx : MTRec.IsSeq MT.P32 x)
    (h0 : ∀ j, j < 624 → x j = MT.refSeed MT.C32 v j) (k : ℕ) : stream32 v k = MT.temper32 (x (624 + k)) := by
  obtain ⟨s', h⟩ := MT.mt19937 MT.fresh (v.setWidth 64) (k + 1) x hx (fun j hj => by
    rw [h0 j hj, BitVec.setWidth_setWidth_of_le _ (by omega), BitVec.setWidth_eq])
  unfold stream32
  rw [h, Option.bind_some, List.range_succ, List.map_append, List.map_singleton, ← List.cons_append, List.getLast?_append]
  simp only [List.getLast?_singleton, Option.some_or, Option.getD_some]
  rw [BitVec.setWidth_setWidth_of_le _ (by omega), BitVec.setWidth_eq]

/-- **C91.**  The numbers that dSFMTdc and rmt64dc consume are those of MT19937-64 with the seed of the command line. -/
theorem stream64_eq (v : BitVec 64) (x : ℕ → BitVec 64) (hx : MTRec.IsSeq MT.P64 x)
    (h0 : ∀ j, j < 312 → x j = MT.refSeed MT.C64 v j) (k : ℕ) : stream64 v k = MT.temper64 (x (312 + k)) := by
  obtain ⟨s', h⟩ := MT.mt19937_64 MT.fresh v (k + 1) x hx h0
  unfold stream64
  rw [h, Option.bind_some, List.range_succ, List.map_append, List.map_singleton, ← List.cons_append, List.getLast?_append]
  simp only [List.getLast?_singleton, Option.some_or, Option.getD_some]

/-! ### What the command line says -/

def fileVal : Ev → Option (List Char)
  | .file a => some a
  | _ => none

def countVal : Ev → Option ℤ
  | .count a => some (strtol a).1
  | _ => none

def seedVal : Ev → Option (BitVec 64)
  | .seed a => some (strtoull a).1
  | _ => none

/-- The `sl1` that the option `--fixed` asks for. -/
def fixedVal : Ev → Option (Option (BitVec 32))
  | .fixed none => some (some 19)
  | .fixed (some a) => some (some ((strtoull a).1.setWidth 32))
  | _ => none

def maxVal : Ev → Option (BitVec 32)
  | .max a => some (BitVec.ofInt 32 (strtol a).1)
  | _ => none

def startVal : Ev → Option (BitVec 32)
  | .start a => some ((strtoull a).1.setWidth 32)
  | _ => none

def textVal : Ev → Option (List Char)
  | .seed a => some a
  | _ => none

def allVal : Ev → Option Bool
  | .all => some true
  | _ => none

/-- Specification: a command line with one operand, the exponent, that is in order. -/
structure Accepts (fine : Ev → Prop) (allowed : List ℕ) (canOpen : List Char → Bool) (evs : List Ev)
    (operands : List (List Char)) (mexp : ℕ) : Prop where
  options : ∀ e ∈ evs, fine e
  operand : ∃ a rest, operands = a :: rest ∧ IsNumeral a mexp
  mem : mexp ∈ allowed
  file : lastOf fileVal evs [] = [] ∨ canOpen (lastOf fileVal evs []) = true

theorem field_file {evs : List Ev} (clock : BitVec 64) :
    ((∀ e ∈ evs, fineSeed e) → (readOpts stepSeed (init clock 0 0) evs).filename = lastOf fileVal evs []) ∧
    ((∀ e ∈ evs, fineFixed e) → (readOpts stepFixed (init clock 0 0) evs).filename = lastOf fileVal evs []) := by
  constructor
  · intro h
    exact readOpts_field known_seed (·.filename) fileVal (by
      rintro o (_ | a | a | a | a | _ | a | a | _) _ <;> rfl) h rfl rfl
  · intro h
    exact readOpts_field known_fixed (·.filename) fileVal (by
      rintro o (_ | a | a | a | (_ | a) | _ | a | a | _) _ <;> rfl) h rfl rfl

theorem field_count {evs : List Ev} (clock : BitVec 64) :
    ((∀ e ∈ evs, fineSeed e) → (readOpts stepSeed (init clock 0 0) evs).count = lastOf countVal evs 1) ∧
    ((∀ e ∈ evs, fineFixed e) → (readOpts stepFixed (init clock 0 0) evs).count = lastOf countVal evs 1) := by
  constructor
  · intro h
    exact readOpts_field known_seed (·.count) countVal (by
      rintro o (_ | a | a | a | a | _ | a | a | _) _ <;> rfl) h rfl rfl
  · intro h
    exact readOpts_field known_fixed (·.count) countVal (by
      rintro o (_ | a | a | a | (_ | a) | _ | a | a | _) _ <;> rfl) h rfl rfl

theorem field_seed {evs : List Ev} (clock : BitVec 64) :
    ((∀ e ∈ evs, fineSeed e) → (readOpts stepSeed (init clock 0 0) evs).seed = lastOf seedVal evs clock) ∧
    ((∀ e ∈ evs, fineFixed e) → (readOpts stepFixed (init clock 0 0) evs).seed = lastOf seedVal evs clock) := by
  constructor
  · intro h
    exact readOpts_field known_seed (·.seed) seedVal (by
      rintro o (_ | a | a | a | a | _ | a | a | _) _ <;> rfl) h rfl rfl
  · intro h
    exact readOpts_field known_fixed (·.seed) seedVal (by
      rintro o (_ | a | a | a | (_ | a) | _ | a | a | _) _ <;> rfl) h rfl rfl

theorem field_fixed {evs : List Ev} (clock : BitVec 64) (h : ∀ e ∈ evs, fineFixed e) :
    (if (readOpts stepFixed (init clock 0 0) evs).fixed then some (readOpts stepFixed (init clock 0 0) evs).fixedSL1 else none) =
      lastOf fixedVal evs none :=
  readOpts_field known_fixed (fun o => if o.fixed then some o.fixedSL1 else none) fixedVal (by
    rintro o (_ | a | a | a | (_ | a) | _ | a | a | _) _ <;> rfl) h rfl rfl

theorem accept_seed {allowed : List ℕ} (ha : ∀ k ∈ allowed, 0 < k ∧ k < 2 ^ 31) {clock : BitVec 64} {canOpen : List Char → Bool}
    {evs : List Ev} {operands : List (List Char)} {mexp : ℕ} (h : Accepts fineSeed allowed canOpen evs operands mexp) :
    ∃ o : Opts, parseMexp stepSeed allowed clock canOpen evs operands = some (o, (mexp : ℤ)) ∧
      o.seed = lastOf seedVal evs clock ∧ o.count = lastOf countVal evs 1 := by
  refine ⟨_, (parseMexp_iff known_seed ha).2 ⟨h.options, h.operand, ⟨mexp, h.mem, rfl⟩, rfl, ?_⟩,
    (field_seed clock).1 h.options, (field_count clock).1 h.options⟩
  rw [(field_file clock).1 h.options]
  exact h.file

theorem reject_seed {allowed : List ℕ} (ha : ∀ k ∈ allowed, 0 < k ∧ k < 2 ^ 31) {clock : BitVec 64} {canOpen : List Char → Bool}
    {evs : List Ev} {operands : List (List Char)} (h : ¬ ∃ mexp, Accepts fineSeed allowed canOpen evs operands mexp) :
    parseMexp stepSeed allowed clock canOpen evs operands = none := by
  cases hp : parseMexp stepSeed allowed clock canOpen evs operands with
  | none => rfl
  | some q =>
    obtain ⟨o, m⟩ := q
    obtain ⟨h1, ⟨a, rest, h2, h3⟩, ⟨k, hk, rfl⟩, rfl, h5⟩ := (parseMexp_iff known_seed ha).1 hp
    refine absurd ⟨k, h1, ⟨a, rest, h2, h3⟩, hk, ?_⟩ h
    rw [← (field_file clock).1 h1]
    exact h5

theorem accept_fixed {allowed : List ℕ} (ha : ∀ k ∈ allowed, 0 < k ∧ k < 2 ^ 31) {clock : BitVec 64} {canOpen : List Char → Bool}
    {evs : List Ev} {operands : List (List Char)} {mexp : ℕ} (h : Accepts fineFixed allowed canOpen evs operands mexp) :
    ∃ o : Opts, parseMexp stepFixed allowed clock canOpen evs operands = some (o, (mexp : ℤ)) ∧
      o.seed = lastOf seedVal evs clock ∧ o.count = lastOf countVal evs 1 ∧
      (if o.fixed then some o.fixedSL1 else none) = lastOf fixedVal evs none := by
  refine ⟨_, (parseMexp_iff known_fixed ha).2 ⟨h.options, h.operand, ⟨mexp, h.mem, rfl⟩, rfl, ?_⟩,
    (field_seed clock).2 h.options, (field_count clock).2 h.options, field_fixed clock h.options⟩
  rw [(field_file clock).2 h.options]
  exact h.file

theorem reject_fixed {allowed : List ℕ} (ha : ∀ k ∈ allowed, 0 < k ∧ k < 2 ^ 31) {clock : BitVec 64} {canOpen : List Char → Bool}
    {evs : List Ev} {operands : List (List Char)} (h : ¬ ∃ mexp, Accepts fineFixed allowed canOpen evs operands mexp) :
    parseMexp stepFixed allowed clock canOpen evs operands = none := by
  cases hp : parseMexp stepFixed allowed clock canOpen evs operands with
  | none => rfl
  | some q =>
    obtain ⟨o, m⟩ := q
    obtain ⟨h1, ⟨a, rest, h2, h3⟩, ⟨k, hk, rfl⟩, rfl, h5⟩ := (parseMexp_iff known_fixed ha).1 hp
    refine absurd ⟨k, h1, ⟨a, rest, h2, h3⟩, hk, ?_⟩ h
    rw [← (field_file clock).2 h1]
    exact h5

/-! ### The programs -/

/-- The number of lines that `-c` asks for: the last one counts, without it 1; the value is cast to `int`. -/
def lines (evs : List Ev) : ℕ := (asInt (lastOf countVal evs 1)).toNat

section

variable {mps : MPS} {kernel : KernelFn} {xgcd : DSFMT.XgcdFn} {fuel : ℕ} {clock : BitVec 64} {canOpen : List Char → Bool}
  {evs : List Ev} {operands : List (List Char)}

theorem sfmt_allowed : ∀ k ∈ SFMT.allowedMexp, (0 < k ∧ k < 2 ^ 31) ∧ k ≤ 44497 := by decide

theorem dsfmt_allowed : ∀ k ∈ DSFMT.allowedMexp, (0 < k ∧ k < 2 ^ 31) ∧ k ≤ 44497 := by decide

/-- **C91.**  sfmtdc from the command line: a usage message unless the command line is in order; otherwise it prints as many lines as asked for,
or fewer and "search failed"; every line is as claimed for the exponent of the command line. -/
theorem sfmtdc_program (hm : MinPolySeqSpec mps) (hK : KernelSpec kernel) (hfuel : 50000 ≤ fuel) (J : SFMT.Junk) :
    ((¬ ∃ mexp, Accepts fineSeed SFMT.allowedMexp canOpen evs operands mexp) →
      (sfmtdc mps kernel fuel clock canOpen evs operands J).out = none) ∧
    ∀ mexp, Accepts fineSeed SFMT.allowedMexp canOpen evs operands mexp → ∃ L, (∀ l ∈ L, SFMT.GoodLine mexp l) ∧
      ((sfmtdc mps kernel fuel clock canOpen evs operands J).out = some (.done L) ∧ L.length = lines evs ∨
        (sfmtdc mps kernel fuel clock canOpen evs operands J).out = some (.failed L) ∧ L.length < lines evs) := by
  have ha := fun k hk => (sfmt_allowed k hk).1
  constructor
  · intro h
    unfold sfmtdc
    rw [reject_seed ha h]
    rfl
  · intro mexp h
    obtain ⟨o, e1, e2, e3⟩ := accept_seed ha (clock := clock) h
    have hle := (sfmt_allowed mexp h.mem).2
    unfold sfmtdc lines
    rw [e1, ← e3]
    dsimp only [Option.map_some]
    rw [Int.toNat_natCast]
    rcases SFMT.dcSearch_correct hm hK h.mem (show (mexp / 128 + 1) * 128 < fuel by omega) J (asInt o.count).toNat
      (stream32 (o.seed.setWidth 32)) with ⟨L, g1, g2, g3⟩ | ⟨L, g1, g2, g3⟩
    · exact ⟨L, g3, Or.inl ⟨congrArg some g1, g2⟩⟩
    · exact ⟨L, g3, Or.inr ⟨congrArg some g1, g2⟩⟩

/-- **C91.**  The same for sfmtdcfixed. -/
theorem sfmtdcfixed_program (hm : MinPolySeqSpec mps) (hK : KernelSpec kernel) (hfuel : 50000 ≤ fuel) (J : SFMT.Junk) :
    ((¬ ∃ mexp, Accepts fineSeed SFMT.allowedMexp canOpen evs operands mexp) →
      (sfmtdcfixed mps kernel fuel clock canOpen evs operands J).out = none) ∧
    ∀ mexp, Accepts fineSeed SFMT.allowedMexp canOpen evs operands mexp → ∃ L, (∀ l ∈ L, SFMT.GoodLine mexp l) ∧
      ((sfmtdcfixed mps kernel fuel clock canOpen evs operands J).out = some (.done L) ∧ L.length = lines evs ∨
        (sfmtdcfixed mps kernel fuel clock canOpen evs operands J).out = some (.failed L) ∧ L.length < lines evs) := by
  have ha := fun k hk => (sfmt_allowed k hk).1
  constructor
  · intro h
    unfold sfmtdcfixed
    rw [reject_seed ha h]
    rfl
  · intro mexp h
    obtain ⟨o, e1, e2, e3⟩ := accept_seed ha (clock := clock) h
    have hle := (sfmt_allowed mexp h.mem).2
    unfold sfmtdcfixed lines
    rw [e1, ← e3]
    dsimp only [Option.map_some]
    rw [Int.toNat_natCast]
    rcases SFMT.dcFixed_correct hm hK h.mem (show (mexp / 128 + 1) * 128 < fuel by omega) J (asInt o.count).toNat
      (stream32 (o.seed.setWidth 32)) with ⟨L, g1, g2, g3⟩ | ⟨L, g1, g2, g3⟩
    · exact ⟨L, g3, Or.inl ⟨congrArg some g1, g2⟩⟩
    · exact ⟨L, g3, Or.inr ⟨congrArg some g1, g2⟩⟩

/-- **C91.**  The same for dSFMTdc, as long as `--fixed` does not ask for 0 or for more than 63. -/
theorem dsfmtdc_program (hm : MinPolySeqSpec mps) (hK : KernelSpec kernel) (hX : DSFMT.XgcdSpec xgcd) (hfuel : 50000 ≤ fuel)
    (J : DSFMT.Junk) :
    ((¬ ∃ mexp, Accepts fineFixed DSFMT.allowedMexp canOpen evs operands mexp) →
      (dsfmtdc mps kernel xgcd fuel clock canOpen evs operands J).out = none) ∧
    ∀ mexp, Accepts fineFixed DSFMT.allowedMexp canOpen evs operands mexp →
      (∀ x ∈ lastOf fixedVal evs none, 1 ≤ x.toNat ∧ x.toNat < 64) → ∃ L,
      (∀ l ∈ L, DSFMT.GoodLine ((mexp - 128) / 104 + 1) mexp l) ∧
      ((dsfmtdc mps kernel xgcd fuel clock canOpen evs operands J).out = some (.done L) ∧ L.length = lines evs ∨
        (dsfmtdc mps kernel xgcd fuel clock canOpen evs operands J).out = some (.failed L) ∧ L.length < lines evs) := by
  have ha := fun k hk => (dsfmt_allowed k hk).1
  constructor
  · intro h
    unfold dsfmtdc
    rw [reject_fixed ha h]
    rfl
  · intro mexp h hx
    obtain ⟨o, e1, e2, e3, e4⟩ := accept_fixed ha (clock := clock) h
    have hle := (dsfmt_allowed mexp h.mem).2
    unfold dsfmtdc lines
    rw [e1, ← e3]
    rw [← e4] at hx
    dsimp only [Option.map_some]
    have hno : ¬ (o.fixed = true ∧ 64 ≤ o.fixedSL1.toNat) := by
      rintro ⟨g1, g2⟩
      have := hx o.fixedSL1 (by rw [g1]; rfl)
      omega
    rw [Int.toNat_natCast, if_neg hno]
    rcases DSFMT.dcSearch_correct hm hK hX h.mem (fixedSL1 := if o.fixed then some o.fixedSL1.toNat else none) (fun x hx' => by
      cases hf : o.fixed with
      | false => rw [hf] at hx'; cases hx'
      | true =>
        rw [hf] at hx' hx
        cases hx'
        exact hx _ rfl) (show ((mexp - 128) / 104 + 1) * 104 + 128 < fuel by omega) J (asInt o.count).toNat
      (stream64 o.seed) with ⟨L, g1, g2, g3⟩ | ⟨L, g1, g2, g3⟩
    · exact ⟨L, g3, Or.inl ⟨congrArg some g1, g2⟩⟩
    · exact ⟨L, g3, Or.inr ⟨congrArg some g1, g2⟩⟩

/-- **C91 (negation).**  dSFMTdc accepts `--fixed 64` and more (and `--fixed -1`), and then the behaviour is undefined as soon as a line is asked for. -/
theorem dsfmtdc_undefined {mexp : ℕ} (h : Accepts fineFixed DSFMT.allowedMexp canOpen evs operands mexp) (J : DSFMT.Junk)
    {x : BitVec 32} (hx : lastOf fixedVal evs none = some x) (h64 : 64 ≤ x.toNat) (hl : 0 < lines evs) :
    (dsfmtdc mps kernel xgcd fuel clock canOpen evs operands J).out = some .undef := by
  have ha := fun k hk => (dsfmt_allowed k hk).1
  obtain ⟨o, e1, e2, e3, e4⟩ := accept_fixed ha (clock := clock) h
  unfold lines at hl
  unfold dsfmtdc
  rw [e1]
  rw [hx] at e4
  dsimp only [Option.map_some]
  cases hf : o.fixed with
  | false => rw [hf] at e4; cases e4
  | true =>
    rw [hf] at e4
    injection e4 with e4
    rw [if_pos ⟨rfl, by rw [e4]; exact h64⟩, if_pos (by rw [e3]; omega)]

-- A command line as in the hypotheses: `dSFMTdc --fixed 64 19937`.
example : Accepts fineFixed DSFMT.allowedMexp (fun _ => false) [.fixed (some ['6', '4'])] [['1', '9', '9', '3', '7']] 19937 ∧
    lastOf fixedVal [.fixed (some ['6', '4'])] none = some 64 ∧ 0 < lines [.fixed (some ['6', '4'])] :=
  ⟨⟨by intro e he; rw [List.mem_singleton] at he; subst he; show _ = _; decide, ⟨_, _, rfl, [], [], ['1', '9', '9', '3', '7'], [],
    by decide, by decide, by decide, by decide, by decide, by decide, by decide⟩, by decide, Or.inl rfl⟩, by decide, by decide⟩

/-- **C91.**  rmt64dc from the command line (`one` is the shift `1 << r` of the parity search, see C88): a usage message unless the command
line is in order; a run that ends has printed as many lines as asked for, or stops at an undefined shift. -/
theorem rmt64dc_program (hm : MinPolySeqSpec mps) (hK : KernelSpec kernel) (one : ℕ → Option (BitVec 64)) (junk : ℕ → BitVec 64)
    (veq : ℕ → ℕ) (junkPos : ℕ) (junkA : BitVec 64) (junkS : ℕ → BitVec 64) :
    ((¬ ∃ mexp, Accepts fineSeed RMT.allowedMexp canOpen evs operands mexp) →
      (rmt64dc mps kernel fuel clock canOpen evs operands one junk veq junkPos junkA junkS).out = none) ∧
    ∀ mexp, Accepts fineSeed RMT.allowedMexp canOpen evs operands mexp → ∃ res,
      (rmt64dc mps kernel fuel clock canOpen evs operands one junk veq junkPos junkA junkS).out = some res ∧
      ∀ e, res = some e → (∃ L, e = .normal L ∧ L.length = lines evs ∧ ∀ l ∈ L, RMT.GoodLine mexp l) ∨
        ∃ L, e = .shift L ∧ L.length < lines evs ∧ (∃ r < 64, one r = none) ∧ ∀ l ∈ L, RMT.GoodLine mexp l := by
  have ha : ∀ k ∈ RMT.allowedMexp, 0 < k ∧ k < 2 ^ 31 := by decide
  constructor
  · intro h
    unfold rmt64dc
    rw [reject_seed ha h]
    rfl
  · intro mexp h
    obtain ⟨o, e1, e2, e3⟩ := accept_seed ha (clock := clock) h
    unfold rmt64dc lines
    rw [e1, ← e3]
    dsimp only [Option.map_some]
    refine ⟨_, rfl, fun e he => ?_⟩
    rw [Int.toNat_natCast] at he
    exact RMT.rmtMain_correct hm hK h.mem junk veq fuel (asInt o.count) junkPos junkA junkS (stream64 o.seed) he

/-! ### mt2, MTGP32dc, tinymt32dc -/

def intVal : Ev → Option ℤ
  | .count a => some (asInt (strtol a).1)
  | _ => none

def seed32Val : Ev → Option (BitVec 32)
  | .seed a => some ((strtoull a).1.setWidth 32)
  | _ => none

/-- **C91.**  mt2 from the command line: a usage message unless the options are known with arguments in range, the first operand begins with a
number of the table and the second reads as a number between 0 and 65535; a run that ends has printed as many lines as asked for, all with the
exponent and the id of the command line and a `delta` that is not above the argument of `-m`. -/
theorem mt2_program (hm : MinPolySeqSpec mps) (veq : ℕ → ℕ) (turns junkPos : ℕ) (junkA junkSeed : BitVec 32) (junk : ℕ → BitVec 32) :
    ((¬ ((∀ e ∈ evs, fineMt2 e) ∧ ∃ mexp ∈ MTDC.allowedMexp, ∃ i a b rest, operands = a :: b :: rest ∧ IsNumeral a mexp ∧ Reads b i ∧
        0 ≤ i ∧ i ≤ 0xffff)) →
      (mt2 mps fuel canOpen evs operands veq turns junkPos junkA junkSeed junk).out = none) ∧
    ∀ mexp ∈ MTDC.allowedMexp, ∀ i a b rest, (∀ e ∈ evs, fineMt2 e) → operands = a :: b :: rest → IsNumeral a mexp → Reads b i → 0 ≤ i →
      i ≤ 0xffff → ∃ res, (mt2 mps fuel canOpen evs operands veq turns junkPos junkA junkSeed junk).out = some res ∧
      ∀ r, res = some r → ∃ L, r = some L ∧ L.length = (lastOf intVal evs 1).toNat ∧
        ∀ l ∈ L, MTDC.GoodLine mexp i (lastOf maxVal evs 0x7fffffff).toInt l := by
  have ha : ∀ k ∈ MTDC.allowedMexp, 0 < k ∧ k < 2 ^ 31 := by decide
  have hfile : (∀ e ∈ evs, fineMt2 e) → (readOpts stepMt2 (init (junkSeed.setWidth 64) 0x7fffffff 0) evs).filename = [] := by
    intro h
    rw [readOpts_field known_mt2 (·.filename) (fun _ => none) (by
      rintro o (_ | a | a | a | a | _ | a | a | _) _ <;> rfl) h rfl rfl]
    unfold lastOf
    rw [List.filterMap_none]
    rfl
  constructor
  · intro h
    unfold mt2
    cases hp : parseMt2 MTDC.allowedMexp junkSeed canOpen evs operands with
    | none => rfl
    | some q =>
      obtain ⟨o, m, i⟩ := q
      obtain ⟨h1, ⟨a, b, rest, h2, h3, h4⟩, ⟨k, hk, rfl⟩, h5, rfl, h6⟩ := (parseMt2_iff ha).1 hp
      exact absurd ⟨h1, k, hk, i, a, b, rest, h2, h3, h4, h5⟩ h
  · intro mexp hmexp i a b rest h1 h2 h3 h4 h5 h6
    have e1 := (parseMt2_iff ha (junk := junkSeed) (canOpen := canOpen)).2 ⟨h1, ⟨a, b, rest, h2, h3, h4⟩, ⟨mexp, hmexp, rfl⟩, ⟨h5, h6⟩, rfl, Or.inl (hfile h1)⟩
    have e2 : (readOpts stepMt2 (init (junkSeed.setWidth 64) 0x7fffffff 0) evs).count = lastOf intVal evs 1 :=
      readOpts_field known_mt2 (·.count) intVal (by
        rintro o (_ | a | a | a | a | _ | a | a | _) _ <;> rfl) h1 rfl rfl
    have e3 : (readOpts stepMt2 (init (junkSeed.setWidth 64) 0x7fffffff 0) evs).max = lastOf maxVal evs 0x7fffffff :=
      readOpts_field known_mt2 (·.max) maxVal (by
        rintro o (_ | a | a | a | a | _ | a | a | _) _ <;> rfl) h1 rfl rfl
    unfold mt2
    rw [e1]
    dsimp only [Option.map_some]
    rw [e2, e3, Int.toNat_natCast]
    exact ⟨_, rfl, fun r hr => MTDC.main_correct hm hmexp h5 h6 veq fuel turns _ _ junkPos junkA junk _ hr⟩

/-- **C91.**  The numbers that mt2 consumes: those of the last `-s`; without `-s` the seed is an uninitialised variable. -/
theorem mt2_seed (junkSeed : BitVec 32) (h : ∀ e ∈ evs, fineMt2 e) :
    (readOpts stepMt2 (init (junkSeed.setWidth 64) 0x7fffffff 0) evs).seed.setWidth 32 = lastOf seed32Val evs junkSeed := by
  rw [readOpts_field known_mt2 (·.seed.setWidth 32) seed32Val (by
    rintro o (_ | a | a | a | a | _ | a | a | _) _
    case seed => exact (BitVec.setWidth_setWidth_of_le _ (by omega)).trans (BitVec.setWidth_eq _)
    all_goals rfl) h rfl rfl]
  congr 1
  exact (BitVec.setWidth_setWidth_of_le _ (by omega)).trans (BitVec.setWidth_eq _)

/-- **C91.**  MTGP32dc from the command line: a run that ends has printed as many lines as asked for, with consecutive ids; the exponent is the
first operand modulo `2^32`, the id the second operand modulo `2^32`. -/
theorem mtgp32dc_program (hm : MinPolySeqSpec mps) (J : ℕ → MTGP.Junk) (rng : List Char → ℕ → BitVec 32) :
    ((¬ ((∀ e ∈ evs, fineMtgp e) ∧ (∃ a b rest y z, operands = a :: b :: rest ∧ Reads a y ∧ (-2 ^ 63 ≤ y ∧ y < 2 ^ 63) ∧ Reads b z ∧
        (-2 ^ 63 ≤ z ∧ z < 2 ^ 63) ∧ ∃ mexp ∈ MTGP.allowedMexp, y % 2 ^ 32 = mexp) ∧
        (lastOf fileVal evs [] = [] ∨ canOpen (lastOf fileVal evs []) = true))) →
      (mtgp32dc mps fuel canOpen evs operands J rng).out = none) ∧
    ∀ mexp ∈ MTGP.allowedMexp, ∀ a b rest y z, (∀ e ∈ evs, fineMtgp e) → operands = a :: b :: rest → Reads a y →
      (-2 ^ 63 ≤ y ∧ y < 2 ^ 63) → y % 2 ^ 32 = mexp → Reads b z → (-2 ^ 63 ≤ z ∧ z < 2 ^ 63) →
      (lastOf fileVal evs [] = [] ∨ canOpen (lastOf fileVal evs []) = true) →
      ∃ res, (mtgp32dc mps fuel canOpen evs operands J rng).out = some res ∧
      ∀ r, res = some r → ∃ L, r = some L ∧ L.length = (lastOf countVal evs 1).toNat ∧
        ∀ i (hi : i < L.length), MTGP.GoodLine (mexp / 32 + 1) (32 - mexp % 32) mexp (BitVec.ofInt 32 (z + i)) L[i] := by
  have ha : ∀ k ∈ MTGP.allowedMexp, 0 < k ∧ k < 2 ^ 31 := by decide
  have hfile : (∀ e ∈ evs, fineMtgp e) → (readOpts stepMtgp (init 0 0 0) evs).filename = lastOf fileVal evs [] := fun h =>
    readOpts_field known_mtgp (·.filename) fileVal (by
      rintro o (_ | a | a | a | a | _ | a | a | _) _ <;> rfl) h rfl rfl
  constructor
  · intro h
    unfold mtgp32dc
    cases hp : parseMtgp MTGP.allowedMexp canOpen evs operands with
    | none => rfl
    | some q =>
      obtain ⟨o, m, i⟩ := q
      obtain ⟨h1, ⟨a, b, rest, y, z, h2, h3, h4, rfl, h5, h6, rfl⟩, h7, rfl, h8⟩ := (parseMtgp_iff ha).1 hp
      rw [hfile h1] at h8
      refine absurd ⟨h1, ⟨a, b, rest, y, z, h2, h3, h4, h5, h6, _, h7, ?_⟩, h8⟩ h
      rw [BitVec.toNat_ofInt]
      omega
  · intro mexp hmexp a b rest y z h1 h2 h3 h4 h5 h6 h7 h8
    have em : (BitVec.ofInt 32 y).toNat = mexp := by rw [BitVec.toNat_ofInt]; omega
    have e1 := (parseMtgp_iff ha (canOpen := canOpen)).2 ⟨h1, ⟨a, b, rest, y, z, h2, h3, h4, rfl, h6, h7, rfl⟩, by rw [em]; exact hmexp, rfl,
      by rw [hfile h1]; exact h8⟩
    have e2 : (readOpts stepMtgp (init 0 0 0) evs).count = lastOf countVal evs 1 :=
      readOpts_field known_mtgp (·.count) countVal (by
        rintro o (_ | a | a | a | a | _ | a | a | _) _ <;> rfl) h1 rfl rfl
    unfold mtgp32dc
    rw [e1]
    dsimp only [Option.map_some]
    rw [e2, em]
    refine ⟨_, rfl, fun r hr => ?_⟩
    obtain ⟨L, g1, g2, g3⟩ := MTGP.dcMain_exponents hm hmexp J fuel _ _ _ hr
    refine ⟨L, g1, g2, fun i hi => ?_⟩
    have := g3 i hi
    rwa [← BitVec.ofInt_natCast, ← BitVec.ofInt_add] at this

/-- **C91.**  tinymt32dc from the command line: it always ends, and prints the lines of the good parameter numbers of the id from `start` downwards
whose `delta` is not above the argument of `-m`: all of them with `-a`, else the first ones as many as `-c` asks for. -/
theorem tinymt32dc_program (hm : MinPolySeqSpec mps) (veq : ℕ → ℕ) (hfuel : 2 ^ 31 < fuel) :
    ((¬ ((∀ e ∈ evs, fineTiny 0x7fffffff e) ∧ (∃ b rest, ∃ i : BitVec 32, operands = b :: rest ∧ Reads b i.toNat) ∧
        (lastOf fileVal evs [] = [] ∨ canOpen (lastOf fileVal evs []) = true))) →
      (tinymt32dc mps fuel canOpen evs operands veq).out = none) ∧
    ∀ b rest, ∀ i : BitVec 32, (∀ e ∈ evs, fineTiny 0x7fffffff e) → operands = b :: rest → Reads b i.toNat →
      (lastOf fileVal evs [] = [] ∨ canOpen (lastOf fileVal evs []) = true) →
      ∃ L : List TinyMT.Line, List.Forall₂ (TinyMT.GoodLine i) (TinyMT.numbers i ((lastOf startVal evs 0x7fffffff).toNat + 1)) L ∧
        (tinymt32dc mps fuel canOpen evs operands veq).out =
          some (some (if lastOf allVal evs false then L.filter (fun l => l.delta ≤ (lastOf maxVal evs 10).toInt)
            else (L.filter (fun l => l.delta ≤ (lastOf maxVal evs 10).toInt)).take (lines evs))) := by
  obtain ⟨lim, hlim⟩ : ∃ lim : BitVec 32, lim = 0x7fffffff := ⟨_, rfl⟩
  have hlim' : lim.toNat + 1 = 2 ^ 31 := by rw [hlim]; rfl
  have hfile : (∀ e ∈ evs, fineTiny lim e) → (readOpts (stepTiny lim) (init 0 10 lim) evs).filename = lastOf fileVal evs [] := fun h =>
    readOpts_field (known_tiny lim) (·.filename) fileVal (by
      rintro o (_ | a | a | a | a | _ | a | a | _) _ <;> rfl) h rfl rfl
  unfold tinymt32dc
  rw [← hlim]
  constructor
  · intro h
    cases hp : parseTiny lim canOpen evs operands with
    | none => rfl
    | some q =>
      obtain ⟨o, i⟩ := q
      obtain ⟨h1, ⟨b, rest, h2, h3⟩, rfl, h8⟩ := parseTiny_iff.1 hp
      rw [hfile h1] at h8
      exact absurd ⟨h1, ⟨b, rest, i, h2, h3⟩, h8⟩ h
  · intro b rest i h1 h2 h3 h8
    have e1 := (parseTiny_iff (limit := lim) (canOpen := canOpen)).2 ⟨h1, ⟨b, rest, h2, h3⟩, rfl, by rw [hfile h1]; exact h8⟩
    have e2 : (readOpts (stepTiny lim) (init 0 10 lim) evs).count = lastOf countVal evs 1 :=
      readOpts_field (known_tiny lim) (·.count) countVal (by
        rintro o (_ | a | a | a | a | _ | a | a | _) _ <;> rfl) h1 rfl rfl
    have e3 : (readOpts (stepTiny lim) (init 0 10 lim) evs).all = lastOf allVal evs false :=
      readOpts_field (known_tiny lim) (·.all) allVal (by
        rintro o (_ | a | a | a | a | _ | a | a | _) _ <;> rfl) h1 rfl rfl
    have e4 : (readOpts (stepTiny lim) (init 0 10 lim) evs).max = lastOf maxVal evs 10 :=
      readOpts_field (known_tiny lim) (·.max) maxVal (by
        rintro o (_ | a | a | a | a | _ | a | a | _) _ <;> rfl) h1 rfl rfl
    have e5 : (readOpts (stepTiny lim) (init 0 10 lim) evs).start = lastOf startVal evs lim :=
      readOpts_field (known_tiny lim) (·.start) startVal (by
        rintro o (_ | a | a | a | a | _ | a | a | _) _ <;> rfl) h1 rfl rfl
    have hst : ∀ (l : List Ev) (d : BitVec 32), (∀ e ∈ l, fineTiny lim e) → d ≤ lim → lastOf startVal l d ≤ lim := by
      intro l
      induction l with
      | nil => exact fun d _ hd => hd
      | cons e l ih =>
        intro d hl hd
        rw [lastOf_cons]
        refine ih _ (fun x hx => hl x (by simp [hx])) ?_
        have he := hl e (by simp)
        rcases e with _ | a | a | a | a | _ | a | a | _ <;> first | exact hd | exact he.2
    have hle : (lastOf startVal evs lim).toNat ≤ lim.toNat := BitVec.le_def.1 (hst evs lim h1 (by rw [BitVec.le_def]))
    rw [e1]
    dsimp only [Option.map_some]
    rw [e2, e3, e4, e5]
    obtain ⟨L, g1, g2⟩ := TinyMT.dcMain_correct hm veq (lines evs) (lastOf allVal evs false) (lastOf maxVal evs 10).toInt
      (lastOf startVal evs lim) i (show (lastOf startVal evs lim).toNat + 1 < fuel by omega)
    exact ⟨L, g1, congrArg some g2⟩

/-! ### The seed of the command line -/

/-- The numbers of MT19937 seeded with `v`. -/
def IsMT19937 (v : BitVec 32) (f : ℕ → BitVec 32) : Prop :=
  ∃ x : ℕ → BitVec 32, MTRec.IsSeq MT.P32 x ∧ (∀ j, j < 624 → x j = MT.refSeed MT.C32 v j) ∧ ∀ k, f k = MT.temper32 (x (624 + k))

/-- The numbers of MT19937-64 seeded with `v`. -/
def IsMT19937_64 (v : BitVec 64) (f : ℕ → BitVec 64) : Prop :=
  ∃ x : ℕ → BitVec 64, MTRec.IsSeq MT.P64 x ∧ (∀ j, j < 312 → x j = MT.refSeed MT.C64 v j) ∧ ∀ k, f k = MT.temper64 (x (312 + k))

theorem eq_stream32 {v : BitVec 32} {f : ℕ → BitVec 32} (h : IsMT19937 v f) : f = stream32 v := by
  obtain ⟨x, h1, h2, h3⟩ := h
  funext k
  rw [h3, stream32_eq v x h1 h2]

theorem eq_stream64 {v : BitVec 64} {f : ℕ → BitVec 64} (h : IsMT19937_64 v f) : f = stream64 v := by
  obtain ⟨x, h1, h2, h3⟩ := h
  funext k
  rw [h3, stream64_eq v x h1 h2]

-- Such a sequence exists for every seed.
example (v : BitVec 32) : ∃ f, IsMT19937 v f := by
  obtain ⟨x, ⟨h1, h2⟩, -⟩ := MT.exists_seq MT.P32_ok (MT.refSeed MT.C32 v)
  exact ⟨_, x, h1, h2, fun _ => rfl⟩

/-- **C91.**  sfmtdc is the search of C67 with the exponent, the count and the seed (the low 32 bits) of the command line: equal command lines with `-s` give equal
lines. -/
theorem sfmtdc_search (J : SFMT.Junk) {mexp : ℕ} (h : Accepts fineSeed SFMT.allowedMexp canOpen evs operands mexp) {f : ℕ → BitVec 32}
    (hf : IsMT19937 ((lastOf seedVal evs clock).setWidth 32) f) :
    (sfmtdc mps kernel fuel clock canOpen evs operands J).out = some (SFMT.dcSearch mps kernel fuel J mexp (lines evs) f) := by
  obtain ⟨o, e1, e2, e3⟩ := accept_seed (fun k hk => (sfmt_allowed k hk).1) (clock := clock) h
  unfold sfmtdc lines
  rw [e1, ← e3, eq_stream32 hf, ← e2]
  rfl

/-- **C91.**  The same for sfmtdcfixed. -/
theorem sfmtdcfixed_search (J : SFMT.Junk) {mexp : ℕ} (h : Accepts fineSeed SFMT.allowedMexp canOpen evs operands mexp) {f : ℕ → BitVec 32}
    (hf : IsMT19937 ((lastOf seedVal evs clock).setWidth 32) f) :
    (sfmtdcfixed mps kernel fuel clock canOpen evs operands J).out = some (SFMT.dcFixed mps kernel fuel J mexp (lines evs) f) := by
  obtain ⟨o, e1, e2, e3⟩ := accept_seed (fun k hk => (sfmt_allowed k hk).1) (clock := clock) h
  unfold sfmtdcfixed lines
  rw [e1, ← e3, eq_stream32 hf, ← e2]
  rfl

/-- **C91.**  The same for dSFMTdc (64 bits of the seed), with the `sl1` of `--fixed` if there is one. -/
theorem dsfmtdc_search (J : DSFMT.Junk) {mexp : ℕ} (h : Accepts fineFixed DSFMT.allowedMexp canOpen evs operands mexp) {f : ℕ → BitVec 64}
    (hf : IsMT19937_64 (lastOf seedVal evs clock) f) (hx : ∀ x ∈ lastOf fixedVal evs none, x.toNat < 64) :
    (dsfmtdc mps kernel xgcd fuel clock canOpen evs operands J).out =
      some (DSFMT.dcSearch mps kernel xgcd fuel J mexp (lines evs) ((lastOf fixedVal evs none).map (·.toNat)) f) := by
  obtain ⟨o, e1, e2, e3, e4⟩ := accept_fixed (fun k hk => (dsfmt_allowed k hk).1) (clock := clock) h
  unfold dsfmtdc lines
  rw [e1, ← e3, eq_stream64 hf, ← e2, ← e4]
  rw [← e4] at hx
  dsimp only [Option.map_some]
  cases ho : o.fixed with
  | false => rw [if_neg (fun hc => absurd hc.1 (by decide))]; rfl
  | true =>
    rw [ho] at hx
    have := hx _ rfl
    rw [if_neg (by omega)]
    rfl

/-- **C91.**  The same for rmt64dc. -/
theorem rmt64dc_search (one : ℕ → Option (BitVec 64)) (junk : ℕ → BitVec 64) (veq : ℕ → ℕ) (junkPos : ℕ) (junkA : BitVec 64)
    (junkS : ℕ → BitVec 64) {mexp : ℕ} (h : Accepts fineSeed RMT.allowedMexp canOpen evs operands mexp) {f : ℕ → BitVec 64}
    (hf : IsMT19937_64 (lastOf seedVal evs clock) f) :
    (rmt64dc mps kernel fuel clock canOpen evs operands one junk veq junkPos junkA junkS).out =
      some (RMT.rmtMain mps kernel one junk veq fuel mexp (lines evs) junkPos junkA junkS f) := by
  obtain ⟨o, e1, e2, e3⟩ := accept_seed (show ∀ k ∈ RMT.allowedMexp, 0 < k ∧ k < 2 ^ 31 by decide) (clock := clock) h
  unfold rmt64dc lines
  rw [e1, ← e3, eq_stream64 hf, ← e2]
  unfold RMT.rmtMain
  rfl

/-- **C91.**  The same for mt2: the id and the limit of `-m` also are those of the command line; without `-s` the seed is whatever the memory holds. -/
theorem mt2_search (veq : ℕ → ℕ) (turns junkPos : ℕ) (junkA junkSeed : BitVec 32) (junk : ℕ → BitVec 32) {mexp : ℕ}
    (hmexp : mexp ∈ MTDC.allowedMexp) {i : ℤ} {a b : List Char} {rest : List (List Char)} (h1 : ∀ e ∈ evs, fineMt2 e)
    (h2 : operands = a :: b :: rest) (h3 : IsNumeral a mexp) (h4 : Reads b i) (h5 : 0 ≤ i) (h6 : i ≤ 0xffff) {f : ℕ → BitVec 32}
    (hf : IsMT19937 (lastOf seed32Val evs junkSeed) f) :
    (mt2 mps fuel canOpen evs operands veq turns junkPos junkA junkSeed junk).out =
      some (MTDC.main mps (Period.primitivityOp none) veq fuel turns mexp i (lastOf intVal evs 1) (lastOf maxVal evs 0x7fffffff).toInt junkPos
        junkA junk f) := by
  have ha : ∀ k ∈ MTDC.allowedMexp, 0 < k ∧ k < 2 ^ 31 := by decide
  have hfile : (readOpts stepMt2 (init (junkSeed.setWidth 64) 0x7fffffff 0) evs).filename = [] := by
    rw [readOpts_field known_mt2 (·.filename) (fun _ => none) (by
      rintro o (_ | a | a | a | a | _ | a | a | _) _ <;> rfl) h1 rfl rfl]
    unfold lastOf
    rw [List.filterMap_none]
    rfl
  have e1 := (parseMt2_iff ha (junk := junkSeed) (canOpen := canOpen)).2 ⟨h1, ⟨a, b, rest, h2, h3, h4⟩, ⟨mexp, hmexp, rfl⟩, ⟨h5, h6⟩, rfl, Or.inl hfile⟩
  have e2 : (readOpts stepMt2 (init (junkSeed.setWidth 64) 0x7fffffff 0) evs).count = lastOf intVal evs 1 :=
    readOpts_field known_mt2 (·.count) intVal (by
      rintro o (_ | a | a | a | a | _ | a | a | _) _ <;> rfl) h1 rfl rfl
  have e3 : (readOpts stepMt2 (init (junkSeed.setWidth 64) 0x7fffffff 0) evs).max = lastOf maxVal evs 0x7fffffff :=
    readOpts_field known_mt2 (·.max) maxVal (by
      rintro o (_ | a | a | a | a | _ | a | a | _) _ <;> rfl) h1 rfl rfl
  unfold mt2
  rw [e1, eq_stream32 hf, ← mt2_seed junkSeed h1, ← e2, ← e3]
  rfl

/-- **C91.**  The same for MTGP32dc, whose seed is a text; `rng` is the sequence that a text selects. -/
theorem mtgp32dc_search (J : ℕ → MTGP.Junk) (rng : List Char → ℕ → BitVec 32) {mexp : ℕ} (hmexp : mexp ∈ MTGP.allowedMexp)
    {a b : List Char} {rest : List (List Char)} {y z : ℤ} (h1 : ∀ e ∈ evs, fineMtgp e) (h2 : operands = a :: b :: rest) (h3 : Reads a y)
    (h4 : -2 ^ 63 ≤ y ∧ y < 2 ^ 63) (h5 : y % 2 ^ 32 = mexp) (h6 : Reads b z) (h7 : -2 ^ 63 ≤ z ∧ z < 2 ^ 63)
    (h8 : lastOf fileVal evs [] = [] ∨ canOpen (lastOf fileVal evs []) = true) :
    (mtgp32dc mps fuel canOpen evs operands J rng).out =
      some (MTGP.dcMain mps (Period.primitivityOp none) J fuel mexp (rng (lastOf textVal evs [])) (lastOf countVal evs 1).toNat
        (BitVec.ofInt 32 z)) := by
  have ha : ∀ k ∈ MTGP.allowedMexp, 0 < k ∧ k < 2 ^ 31 := by decide
  have hfile : (readOpts stepMtgp (init 0 0 0) evs).filename = lastOf fileVal evs [] :=
    readOpts_field known_mtgp (·.filename) fileVal (by
      rintro o (_ | a | a | a | a | _ | a | a | _) _ <;> rfl) h1 rfl rfl
  have em : (BitVec.ofInt 32 y).toNat = mexp := by rw [BitVec.toNat_ofInt]; omega
  have e1 := (parseMtgp_iff ha (canOpen := canOpen)).2 ⟨h1, ⟨a, b, rest, y, z, h2, h3, h4, rfl, h6, h7, rfl⟩, by rw [em]; exact hmexp, rfl,
    by rw [hfile]; exact h8⟩
  have e2 : (readOpts stepMtgp (init 0 0 0) evs).count = lastOf countVal evs 1 :=
    readOpts_field known_mtgp (·.count) countVal (by
      rintro o (_ | a | a | a | a | _ | a | a | _) _ <;> rfl) h1 rfl rfl
  have e3 : (readOpts stepMtgp (init 0 0 0) evs).text = lastOf textVal evs [] :=
    readOpts_field known_mtgp (·.text) textVal (by
      rintro o (_ | a | a | a | a | _ | a | a | _) _ <;> rfl) h1 rfl rfl
  unfold mtgp32dc
  rw [e1]
  dsimp only [Option.map_some]
  rw [e2, em, e3]

/-! ### What users may not expect -/

/-- **C91 (negation of "the count is honoured").**  The option `-c` with a multiple of `2^32` is accepted, and no line is printed. -/
theorem count_wraps (hm : MinPolySeqSpec mps) (hK : KernelSpec kernel) (hfuel : 50000 ≤ fuel) (J : SFMT.Junk) {mexp : ℕ}
    (h : Accepts fineSeed SFMT.allowedMexp canOpen evs operands mexp) {c : ℤ} (hc : lastOf countVal evs 1 = 2 ^ 32 * c) :
    (sfmtdc mps kernel fuel clock canOpen evs operands J).out = some (.done []) := by
  have h0 : lines evs = 0 := by
    unfold lines asInt
    rw [hc, show BitVec.ofInt 32 (2 ^ 32 * c) = 0 from BitVec.eq_of_toNat_eq (by
      rw [BitVec.toNat_ofInt, show ((2 ^ 32 : ℕ) : ℤ) = 2 ^ 32 by norm_num, Int.mul_emod_right]; rfl)]
    rfl
  obtain ⟨L, -, ⟨g1, g2⟩ | ⟨-, g2⟩⟩ := (sfmtdc_program (clock := clock) hm hK hfuel J).2 mexp h
  · rw [h0, List.length_eq_zero_iff] at g2
    rw [g1, g2]
  · omega

-- `sfmtdc -c 4294967296 607` is accepted.
example : Accepts fineSeed SFMT.allowedMexp (fun _ => false) [.count "4294967296".toList] [['6', '0', '7']] 607 ∧
    lastOf countVal [.count "4294967296".toList] 1 = 2 ^ 32 * 1 := by
  have hr : (strtol "4294967296".toList) = (4294967296, false) := by decide
  refine ⟨⟨?_, ⟨_, _, rfl, [], [], ['6', '0', '7'], [], by decide, by decide, by decide, by decide, by decide, by decide, by decide⟩,
    by decide, Or.inl rfl⟩, ?_⟩
  · intro e he
    rw [List.mem_singleton] at he
    subst he
    exact strtol_ok.1 (by rw [hr])
  · show (strtol "4294967296".toList).1 = _
    rw [hr]
    rfl

/-- **C91 (negation of "the lines go to the file", "an error leaves the files alone").**  A file that is named by `-f` is emptied even if the program then only
prints its usage message. -/
theorem file_emptied (J : SFMT.Junk) (name : List Char) (h : name ≠ []) :
    (sfmtdc mps kernel fuel clock (fun _ => true) [.file name] [] J).emptied = some name ∧
      (sfmtdc mps kernel fuel clock (fun _ => true) [.file name] [] J).out = none := by
  refine ⟨?_, rfl⟩
  have e : readOpts stepSeed (init clock 0 0) [.file name] = { init clock 0 0 with filename := name } := rfl
  unfold sfmtdc
  rw [e]
  unfold emptied
  rw [if_pos ⟨h, rfl⟩]

-- Texts that pass as numbers: `sfmtdc 607abc` is `sfmtdc 607`; `tinymt32dc hello` is `tinymt32dc 0`; `MTGP32dc 4294970513 -1` is
-- `MTGP32dc 3217 4294967295`.
example : Accepts fineSeed SFMT.allowedMexp (fun _ => false) [] ["607abc".toList] 607 :=
  ⟨fun e he => absurd he (by simp), ⟨_, _, rfl, [], [], ['6', '0', '7'], ['a', 'b', 'c'], by decide, by decide, by decide, by decide, by decide,
    by decide, by decide⟩, by decide, Or.inl rfl⟩

example : Reads "hello".toList ((0 : BitVec 32).toNat : ℤ) :=
  (strtol_iff.1 (show strtol "hello".toList = (((0 : BitVec 32).toNat : ℤ), false) by decide)).1

example : (Reads "4294970513".toList 4294970513 ∧ (4294970513 : ℤ) % 2 ^ 32 = (3217 : ℕ) ∧ 3217 ∈ MTGP.allowedMexp) ∧
    Reads "-1".toList (-1) ∧ BitVec.ofInt 32 (-1) = 4294967295 :=
  ⟨⟨(strtol_iff.1 (show strtol "4294970513".toList = (4294970513, false) by decide)).1, by decide, by decide⟩,
    (strtol_iff.1 (show strtol "-1".toList = (-1, false) by decide)).1, by decide⟩

end

end MTT.Options

import Verif.PIS.Result

/-!
# The contract of a GF(2)-linear generator (specification)

`EquidistributionCalculatable.hpp` documents in words what a generator class must provide before it
is given to the algorithms of the library.  `LinGen` is that contract, independent of any model of
code: the states of the object, seen through `den`, form a vector space on which `generate` acts by a
linear map `T` and produces the linear output `O`; `add` adds states; `setZero` gives the zero state;
`generate(v)` gives the `v` most significant bits of what `generate()` would give.
-/

namespace MTT

open PIS

/-- Contract of a linear generator object (see the header of this file).  `Inv` is the invariant of
the C++ object (for example "the index is in range"). -/
structure LinGen {σ S : Type} {w : ℕ} [AddCommGroup S] [Module (ZMod 2) S] (G : GenOps σ w)
    (Inv : σ → Prop) (den : σ → S) (T : S →ₗ[ZMod 2] S) (O : S →ₗ[ZMod 2] V) : Prop where
  gen_inv : ∀ s, Inv s → Inv (G.generate s).1
  gen_den : ∀ s, Inv s → den (G.generate s).1 = T (den s)
  gen_out : ∀ s, Inv s → bits (G.generate s).2 = O (den s)
  genV_inv : ∀ v s, 1 ≤ v → v ≤ w → Inv s → Inv (G.generateV v s).1
  genV_den : ∀ v s, 1 ≤ v → v ≤ w → Inv s → den (G.generateV v s).1 = T (den s)
  genV_out : ∀ v s, 1 ≤ v → v ≤ w → Inv s → bits (G.generateV v s).2 = mask v (O (den s))
  add_inv : ∀ a b, Inv a → Inv b → Inv (G.add a b)
  add_den : ∀ a b, Inv a → Inv b → den (G.add a b) = den a + den b
  zero_inv : ∀ s, Inv s → Inv (G.setZero s)
  zero_den : ∀ s, Inv s → den (G.setZero s) = 0

end MTT

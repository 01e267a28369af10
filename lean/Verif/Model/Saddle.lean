import Verif.Model.Point
import Verif.Model.Chain

/-!
# Saddle connections

Model of libflatsurf/src/saddle_connection.cc and impl/saddle_connection.impl.hpp without the searches for saddle
connections. The surface of a saddle connection is an explicit argument.
-/

namespace Verif

/-! ### Hashing, libflatsurf/src/util/hash.ipp -/

/-- `ror64`, util/hash.ipp:49-51, for a shift between 1 and 63. -/
def ror64 (word shift : ℕ) : ℕ := (word >>> shift) ||| ((word <<< (64 - shift)) % 2 ^ 64)

/-- `rrxmxmx`, util/hash.ipp:48-58. -/
def rrxmxmx (v : ℕ) : ℕ :=
  let v := v ^^^ (ror64 v 49 ^^^ ror64 v 24)
  let v := (v * 0x9FB21C651E98DF25) % 2 ^ 64
  let v := v ^^^ (v >>> 28)
  let v := (v * 0x9FB21C651E98DF25) % 2 ^ 64
  v ^^^ (v >>> 28)

/-- `hash_combine`, util/hash.ipp:44-60, for two hashes. -/
def hashCombine (s t : ℕ) : ℕ := rrxmxmx t ^^^ s

/-! ### Saddle connections -/

/-- The data of a `SaddleConnection`, impl/saddle_connection.impl.hpp; the chain is given by the coefficients of the
positive half edges. The caches of a chain are modelled in `Verif.Model.Chain`. -/
structure Saddle where
  source : HE
  target : HE
  chain : ℕ → ℤ

namespace FlatTri

variable {T : Type} [CommRing T] [LinearOrder T]

/-- The vector of a chain. This is what is cached in a chain, see `Verif.Chain.exact`. -/
def chainVector (S : FlatTri T) (c : ℕ → ℤ) : Vec T :=
  (List.range (S.tri.size / 2)).foldl (fun v i => v + ((c i : ℤ) : T) • S.vec (2 * i)) 0

/-- `vector`, saddle_connection.cc:294-297. -/
def saddleVector (S : FlatTri T) (c : Saddle) : Vec T := S.chainVector c.chain

/-- `operator==` for saddle connections of the same surface, saddle_connection.cc:105-111. The assertion there is not
modelled. -/
def saddleEq (S : FlatTri T) (c d : Saddle) : Bool :=
  decide (S.saddleVector c = S.saddleVector d) && decide (c.source = d.source)

/-- The hash of a chain, chain.cc:243-261. -/
def chainHash (S : FlatTri T) (c : ℕ → ℤ) : ℕ :=
  (List.range (S.tri.size / 2 - 1)).foldl (fun r i => hashCombine r (Chain.hashCoefficient (c (i + 1))))
    (Chain.hashCoefficient (c 0))

/-- The hash of a saddle connection, saddle_connection.cc:345-348. -/
def saddleHash (S : FlatTri T) (c : Saddle) : ℕ :=
  hashCombine (hashCombine c.source c.target) (S.chainHash c.chain)

end FlatTri

namespace Saddle

/-- The saddle connection of a half edge, saddle_connection.cc:87-90. -/
def ofHalfEdge (e : HE) : Saddle := ⟨e, neg e, Chain.bump (fun _ => 0) e⟩

/-- The constructor from a chain, saddle_connection.cc:92-102. The assertion that the chain is not zero is only made in
debug builds. -/
def make (dbg : Bool) (size : ℕ) (source target : HE) (chain : ℕ → ℤ) : Except Err Saddle :=
  if dbg && (List.range (size / 2)).all (fun i => decide (chain i = 0)) then .error .invalidArgument
  else .ok ⟨source, target, chain⟩

/-- `operator-`, saddle_connection.cc:128-131. The assertion in the constructor is not modelled as the negative of a chain
is not zero when the chain is not zero. -/
def neg (c : Saddle) : Saddle := ⟨c.target, c.source, fun i => -c.chain i⟩

end Saddle

end Verif

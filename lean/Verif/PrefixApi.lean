import Verif.AminoApi

/-!
# codec.go: PrefixBytes
-/

namespace Amino

/-- codec.go:33-38 `NewPrefixBytes`: `copy` into an array of four zero bytes. -/
def newPrefixBytes (bz : Bytes) : Bytes := bz.take 4 ++ (List.replicate 4 0).drop bz.length

/-- codec.go:41, 43, 45 `EqualBytes`: `bytes.Equal`. -/
def equalBytes (pb bz : Bytes) : Bool := pb.length == bz.length && (pb.zip bz).all fun p => p.1 == p.2

end Amino

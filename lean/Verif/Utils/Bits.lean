import Mathlib.Data.Nat.Choose.Sum
import Mathlib.Data.Nat.Bitwise
import Mathlib.Data.List.Sort

/-! # Bit operations and the fixed-particle-number basis (lib/utils/binaryoperations.py) -/

namespace PyTeN.Bits

/-- `np.uint64(1)<<np.uint64(pos)`, lib/utils/binaryoperations.py:6. -/
def mask (pos : ℕ) : BitVec 64 := 1#64 <<< pos

/-- `flipBit`, lib/utils/binaryoperations.py:5-10 (the two conditions are complementary). -/
def flipBit (b : BitVec 64) (pos : ℕ) : BitVec 64 :=
  if b &&& mask pos = 0#64 then b ||| mask pos else b &&& ~~~ mask pos

/-- `setBit`, lib/utils/binaryoperations.py:15-17. -/
def setBit (b : BitVec 64) (pos : ℕ) : BitVec 64 := mask pos ||| b

/-- `unsetBit`, lib/utils/binaryoperations.py:19-21. -/
def unsetBit (b : BitVec 64) (pos : ℕ) : BitVec 64 := ~~~ mask pos &&& b

/-- `getBit`, lib/utils/binaryoperations.py:23-25. -/
def getBit (b : BitVec 64) (pos : ℕ) : ℕ := if b &&& mask pos > 0#64 then 1 else 0

/-- `binarybasis`, lib/utils/binaryoperations.py:32-41, for non-negative arguments (a negative `Nup` recurses for ever).  `rnd` is
the conversion in `np.uint64(n+2**p)`: the sum of an unsigned word and a Python integer is computed in double precision by
numpy 1.x and exactly by numpy 2. -/
def binarybasis (rnd : ℕ → ℕ) : (Nup : ℕ) → (N : ℕ) → List ℕ
  | 0, _ => [0]
  | k + 1, N => (List.range' k (N - k)).flatMap fun p => (binarybasis rnd k p).map fun n => rnd (n + 2 ^ p)

/-- Rounding of an integer to double precision (53 significant bits, ties to even). -/
def double (n : ℕ) : ℕ :=
  if n < 2 ^ 53 then n
  else
    let e := n.log2 - 52
    let q := n / 2 ^ e
    let r := n % 2 ^ e
    if 2 * r < 2 ^ e ∨ (2 * r = 2 ^ e ∧ q % 2 = 0) then q * 2 ^ e else (q + 1) * 2 ^ e

end PyTeN.Bits

import Verif.Model.Bits
import Mathlib.Data.Nat.Bitwise

/-!
# Storage-level model of the default `fw_uint<W>` backend (fw_uint_on_masked_uint.hpp)

A `fw_uint<W>` is a storage word of 32, 64 or 128 bits (`stW W`). All machine operations are taken modulo
`2^(stW W)`, as C++ unsigned arithmetic is; `none` is a failed `assert`. Nothing here assumes that the word
stays below `2^W`: that is what the masking has to achieve.
-/

namespace Thls.Masked

/-- Width of the storage word. fw_uint_on_masked_uint.hpp:28-58,62-63. -/
def stW (W : ℕ) : ℕ := if W ≤ 32 then 32 else if W ≤ 64 then 64 else 128

/-- `ALL_ONES()`: `bits_t(0)-bits_t(1)` in `s`-bit unsigned arithmetic. fw_uint_on_masked_uint.hpp:367. -/
def allOnes (s : ℕ) : ℕ := (0 + (2 ^ s - 1)) % 2 ^ s

/-- `MASK()`. fw_uint_on_masked_uint.hpp:368. -/
def mask (W : ℕ) : ℕ := if W = 0 then 0 else allOnes (stW W) >>> (stW W - W)

/-- Constructor from a storage word: asserts the range, then masks. fw_uint_on_masked_uint.hpp:399-406. -/
def ofBits (W v : ℕ) : Option ℕ := if v ≤ mask W then some (v &&& mask W) else none

/-- Constructor from `int`: asserts non-negative and in range. `bits_t(v)` is reduced modulo the storage width.
fw_uint_on_masked_uint.hpp:389-396. -/
def ofInt (W : ℕ) (v : ℤ) : Option ℕ :=
  if v < 0 then none
  else if (v % 2 ^ stW W).toNat ≤ mask W then some (v % 2 ^ stW W).toNat else none

/-- `operator+(fw_uint)`. fw_uint_on_masked_uint.hpp:492-495. -/
def add (W a b : ℕ) : Option ℕ := ofBits W ((a + b) % 2 ^ stW W &&& mask W)

/-- `operator+(int)`: the `int` is converted to the storage type. fw_uint_on_masked_uint.hpp:497-500. -/
def addInt (W a : ℕ) (b : ℤ) : Option ℕ := ofBits W ((a + (b % 2 ^ stW W).toNat) % 2 ^ stW W &&& mask W)

/-- `operator-(fw_uint)`. fw_uint_on_masked_uint.hpp:502-505. -/
def sub (W a b : ℕ) : Option ℕ := ofBits W ((a + (2 ^ stW W - b)) % 2 ^ stW W &&& mask W)

/-- `operator-(int)`. fw_uint_on_masked_uint.hpp:507-510. -/
def subInt (W a : ℕ) (b : ℤ) : Option ℕ :=
  ofBits W ((a + (2 ^ stW W - (b % 2 ^ stW W).toNat)) % 2 ^ stW W &&& mask W)

/-- `operator*`: multiplication in the storage type of the result. fw_uint_on_masked_uint.hpp:512-517. -/
def mul (W O a b : ℕ) : Option ℕ :=
  ofBits (O + W) ((a % 2 ^ stW (O + W)) * (b % 2 ^ stW (O + W)) % 2 ^ stW (O + W))

/-- `square`. fw_uint_on_masked_uint.hpp:747-752. -/
def square (W a : ℕ) : Option ℕ :=
  ofBits (2 * W) ((a % 2 ^ stW (2 * W)) * (a % 2 ^ stW (2 * W)) % 2 ^ stW (2 * W))

/-- `operator~`. fw_uint_on_masked_uint.hpp:577-578. -/
def not (W a : ℕ) : Option ℕ := ofBits W (a ^^^ mask W)

/-- `operator&(fw_uint)`. fw_uint_on_masked_uint.hpp:580-583. -/
def and (W a b : ℕ) : Option ℕ := ofBits W (a &&& b)

/-- `operator|(fw_uint)`. fw_uint_on_masked_uint.hpp:591-594. -/
def or (W a b : ℕ) : Option ℕ := ofBits W ((a ||| b) &&& mask W)

/-- `operator^(fw_uint)`. fw_uint_on_masked_uint.hpp:602-605. -/
def xor (W a b : ℕ) : Option ℕ := ofBits W ((a ^^^ b) &&& mask W)

/-- `operator&(int)`. fw_uint_on_masked_uint.hpp:585-589. -/
def andInt (W a : ℕ) (b : ℤ) : Option ℕ :=
  if b < 0 then none else ofBits W (a &&& (b % 2 ^ stW W).toNat)

/-- `operator|(int)`: note the strict `b < MASK()`. fw_uint_on_masked_uint.hpp:596-600. -/
def orInt (W a : ℕ) (b : ℤ) : Option ℕ :=
  if b < 0 ∨ mask W ≤ (b % 2 ^ stW W).toNat then none
  else ofBits W ((a ||| (b % 2 ^ stW W).toNat) &&& mask W)

/-- `operator^(int)`. fw_uint_on_masked_uint.hpp:607-611. -/
def xorInt (W a : ℕ) (b : ℤ) : Option ℕ :=
  if b < 0 then none else ofBits W ((a ^^^ (b % 2 ^ stW W).toNat) &&& mask W)

/-- `operator>>`. fw_uint_on_masked_uint.hpp:614-618. -/
def shr (W a : ℕ) (dist : ℤ) : Option ℕ :=
  if 0 ≤ dist ∧ dist < W then ofBits W (a >>> dist.toNat) else none

/-- `operator<<`. fw_uint_on_masked_uint.hpp:621-625. -/
def shl (W a : ℕ) (dist : ℤ) : Option ℕ :=
  if 0 ≤ dist ∧ dist < W then ofBits W ((a <<< dist.toNat) % 2 ^ stW W &&& mask W) else none

/-- Conversion of a comparison result to `fw_uint<1>`. fw_uint_on_masked_uint.hpp:519-571 (the
`fw_uint<1>(bool)` in each line). -/
def ofBool (b : Bool) : Option ℕ := ofInt 1 (if b then 1 else 0)

/-- `operator<`. fw_uint_on_masked_uint.hpp:519-520. -/
def lt (a b : ℕ) : Option ℕ := ofBool (decide (a < b))
/-- `operator<=`. fw_uint_on_masked_uint.hpp:528-529. -/
def le (a b : ℕ) : Option ℕ := ofBool (decide (a ≤ b))
/-- `operator==`. fw_uint_on_masked_uint.hpp:537-538. -/
def eq (a b : ℕ) : Option ℕ := ofBool (decide (a = b))
/-- `operator>=`. fw_uint_on_masked_uint.hpp:546-547. -/
def ge (a b : ℕ) : Option ℕ := ofBool (decide (a ≥ b))
/-- `operator>`. fw_uint_on_masked_uint.hpp:555-556. -/
def gt (a b : ℕ) : Option ℕ := ofBool (decide (a > b))
/-- `operator!=`. fw_uint_on_masked_uint.hpp:564-565. -/
def ne (a b : ℕ) : Option ℕ := ofBool (decide (a ≠ b))

/-- The `int` overloads of the comparisons all assert `o>=0` and convert `o` to an unsigned word (`unsigned`
for `<`, the storage type for the others; by the usual conversions both are at least 32 bits).
fw_uint_on_masked_uint.hpp:522-526,531-535,540-544,549-553,558-562,567-571. -/
def cmpInt (W : ℕ) (cmp : ℕ → ℕ → Option ℕ) (a : ℕ) (o : ℤ) : Option ℕ :=
  if o < 0 then none else cmp a (o % 2 ^ stW W).toNat

/-- `get_bits<HI,LO>`. The shifted word is converted to the result's storage type and masked.
fw_uint_on_masked_uint.hpp:696-708. -/
def getBits (HI LO W x : ℕ) : Option ℕ :=
  if HI < W then ofBits (HI + 1 - LO) ((x >>> LO) % 2 ^ stW (HI + 1 - LO) &&& mask (HI + 1 - LO)) else none

/-- Binary `concat`. fw_uint_on_masked_uint.hpp:714-724. -/
def concat (WA WB a b : ℕ) : Option ℕ :=
  let s := if WA = 0 then 0 else WB
  ofBits (WA + WB) (((a % 2 ^ stW (WA + WB)) <<< s) % 2 ^ stW (WA + WB) ||| (b % 2 ^ stW (WA + WB)))

/-- Ternary `concat`. fw_uint_on_masked_uint.hpp:726-728. -/
def concat3 (WA WB WC a b c : ℕ) : Option ℕ := do concat WA (WB + WC) a (← concat WB WC b c)

/-- Four-way `concat`. fw_uint_on_masked_uint.hpp:730-732. -/
def concat4 (WA WB WC WD a b c d : ℕ) : Option ℕ := do
  concat (WA + WB) (WC + WD) (← concat WA WB a b) (← concat WC WD c d)

/-- `checked_cast<WD,WS>`. fw_uint_on_masked_uint.hpp:736-745. -/
def checkedCast (WD WS s : ℕ) : Option ℕ := if WD = WS then ofBits WD s else none

/-! ## Helpers of fw_uint.hpp, built from the above -/

/-- `zg`. fw_uint.hpp:245-249. -/
def zg (W : ℕ) : Option ℕ := ofInt W 0
/-- `og`. fw_uint.hpp:256-260. -/
def og (W : ℕ) : Option ℕ := do not W (← zg W)
/-- `take_lsb`. fw_uint.hpp:288-292. -/
def takeLsb (W x : ℕ) : Option ℕ := getBits 0 0 W x
/-- `drop_lsb`. fw_uint.hpp:294-298. -/
def dropLsb (W x : ℕ) : Option ℕ := getBits (W - 1) 1 W x
/-- `take_msb`. fw_uint.hpp:300-304. -/
def takeMsb (W x : ℕ) : Option ℕ := getBits (W - 1) (W - 1) W x
/-- `drop_msb`. fw_uint.hpp:306-310. -/
def dropMsb (W x : ℕ) : Option ℕ := getBits (W - 2) 0 W x
/-- `take_lsbs<B>`. fw_uint.hpp:313-323. -/
def takeLsbs (B W x : ℕ) : Option ℕ := if B ≤ W then (if B = 0 then zg B else getBits (B - 1) 0 W x) else none
/-- `drop_lsbs<B>`. fw_uint.hpp:325-335. -/
def dropLsbs (B W x : ℕ) : Option ℕ := if B ≤ W then (if B = W then zg (W - B) else getBits (W - 1) B W x) else none
/-- `take_msbs<B>`. fw_uint.hpp:337-347. -/
def takeMsbs (B W x : ℕ) : Option ℕ := if B ≤ W then (if B = 0 then zg B else getBits (W - 1) (W - B) W x) else none
/-- `drop_msbs<B>`. fw_uint.hpp:349-359. -/
def dropMsbs (B W x : ℕ) : Option ℕ := if B ≤ W then (if B = W then zg (W - B) else getBits (W - 1 - B) 0 W x) else none
/-- `zpad_hi<P>`. fw_uint.hpp:370-374. -/
def zpadHi (P W x : ℕ) : Option ℕ := do concat P W (← zg P) x
/-- `opad_hi<P>`. fw_uint.hpp:376-380. -/
def opadHi (P W x : ℕ) : Option ℕ := do concat P W (← og P) x
/-- `zpad_lo<P>`. fw_uint.hpp:382-386. -/
def zpadLo (P W x : ℕ) : Option ℕ := do concat W P x (← zg P)
/-- `opad_lo<P>`. fw_uint.hpp:388-392. -/
def opadLo (P W x : ℕ) : Option ℕ := do concat W P x (← og P)
/-- `resize<B>`. fw_uint.hpp:403-407. -/
def resize (B W x : ℕ) : Option ℕ := do takeLsbs B (B - W + W) (← zpadHi (B - W) W x)
/-- `add_with_cin`. fw_uint.hpp:409-415. -/
def addWithCin (W x y cin : ℕ) : Option ℕ := do add W (← add W x y) (← zpadHi (W - 1) 1 cin)
/-- `add_sub`. fw_uint.hpp:417-421. -/
def addSub (W doSub x y : ℕ) : Option ℕ := do
  let ny ← not W y
  addWithCin W x (if doSub = 1 then ny else y) doSub
/-- `copybit<W>`. fw_uint.hpp:552-556. -/
def copybit (W b : ℕ) : Option ℕ := if b = 1 then og W else zg W
/-- `concat_array_impl<HI,LO>::go`; recursion on `HI-LO`. fw_uint.hpp:662-682. -/
def concatArray (W lo : ℕ) (x : ℕ → ℕ) : ℕ → Option ℕ
  | 0 => some (x lo)
  | n + 1 => do concat W ((n + 1) * W) (x (lo + n + 1)) (← concatArray W lo x n)

/-! ## Text and GMP exchange -/

/-- The loop of `to_string`, run for bits `0..n-1`. fw_uint_on_masked_uint.hpp:628-638. -/
def toStringLoop (x : ℕ) : ℕ → List Char
  | 0 => []
  | i + 1 =>
    let acc := toStringLoop x i
    let acc := if i % 8 = 0 ∧ i ≠ 0 then '_' :: acc else acc
    (if (x >>> i) &&& 1 = 1 then '1' else '0') :: acc

/-- `to_string`. fw_uint_on_masked_uint.hpp:628-638. -/
def toString (W x : ℕ) : List Char := '0' :: 'b' :: toStringLoop x W

/-- The loop of the string constructor: `n` digits still to read. `none` is a thrown exception.
fw_uint_on_masked_uint.hpp:420-440. The storage word is shifted modulo the storage width `s`. -/
def parseLoop (s : ℕ) : ℕ → ℕ → List Char → Option ℕ
  | 0, bits, rest => if rest = [] then some bits else none
  | _ + 1, _, [] => none
  | n + 1, bits, c :: rest =>
    if c = '_' then parseLoop s (n + 1) bits rest
    else if c = '0' then parseLoop s n (((bits <<< 1) % 2 ^ s + 0) % 2 ^ s) rest
    else if c = '1' then parseLoop s n (((bits <<< 1) % 2 ^ s + 1) % 2 ^ s) rest
    else none

/-- The constructor from a string, binary form only (the decimal form goes through `std::stringstream` and is
not modelled). fw_uint_on_masked_uint.hpp:408-448. -/
def ofString (W : ℕ) : List Char → Option ℕ
  | '0' :: 'b' :: rest => parseLoop (stW W) W 0 rest
  | _ => none

/-- Loop of the `mpz_t` constructor; `n` iterations, starting at bit `offset`.
fw_uint_on_masked_uint.hpp:474-482. -/
def ofMpzLoop (s x : ℕ) : ℕ → ℕ → ℕ → ℕ
  | 0, _, bits => bits
  | n + 1, offset, bits =>
    let limb := x / 2 ^ offset % 2 ^ 32
    ofMpzLoop s x n (offset + 32) (bits ||| (limb <<< offset) % 2 ^ s)

/-- Constructor from `mpz_t` (non-negative argument). `none` is the exception "mpz is too large" or a failed
assertion. `mpz_sizeinbase(x,2) > W` is `2^W ≤ x` for `W ≥ 1` (GMP returns 1 for zero).
fw_uint_on_masked_uint.hpp:464-489. -/
def ofMpz (W x : ℕ) : Option ℕ :=
  if W < max 1 (Nat.size x) then none
  else ofBits W (ofMpzLoop (stW W) x ((W + 31) / 32) 0 0)

/-- Loop of `to_mpz_t`. fw_uint_on_masked_uint.hpp:676-682. -/
def toMpzLoop (x : ℕ) : ℕ → ℕ → ℕ → ℕ
  | 0, _, res => res
  | n + 1, offset, res => toMpzLoop x n (offset + 32) (res + ((x >>> offset) &&& 0xFFFFFFFF) * 2 ^ offset)

/-- `to_mpz_t`. fw_uint_on_masked_uint.hpp:667-685. -/
def toMpz (W x : ℕ) : ℕ := toMpzLoop x ((W + 31) / 32) 0 0

end Thls.Masked

namespace Thls.Fallback

/-- The two-limb replacement for a 128-bit word. fw_uint_on_masked_uint.hpp:62-108. -/
structure U128 where
  hi : ℕ
  lo : ℕ
deriving DecidableEq

/-- 64-bit unsigned wrap-around. fw_uint_on_masked_uint.hpp:62-182. -/
def u64 (x : ℕ) : ℕ := x % 2 ^ 64

/-- `operator+`. fw_uint_on_masked_uint.hpp:117-121. -/
def add (a b : U128) : U128 :=
  ⟨u64 (u64 (a.hi + b.hi) + (if u64 (a.lo + b.lo) < a.lo then 1 else 0)), u64 (a.lo + b.lo)⟩

/-- `operator-`. fw_uint_on_masked_uint.hpp:123-127. -/
def sub (a b : U128) : U128 :=
  ⟨u64 (u64 (a.hi + (2 ^ 64 - b.hi)) + (2 ^ 64 - (if u64 (a.lo + (2 ^ 64 - b.lo)) > a.lo then 1 else 0))),
   u64 (a.lo + (2 ^ 64 - b.lo))⟩

/-- `operator|`. fw_uint_on_masked_uint.hpp:144-145. -/
def or (a b : U128) : U128 := ⟨a.hi ||| b.hi, a.lo ||| b.lo⟩
/-- `operator&`. fw_uint_on_masked_uint.hpp:147-148. -/
def and (a b : U128) : U128 := ⟨a.hi &&& b.hi, a.lo &&& b.lo⟩
/-- `operator^`. fw_uint_on_masked_uint.hpp:150-151. -/
def xor (a b : U128) : U128 := ⟨a.hi ^^^ b.hi, a.lo ^^^ b.lo⟩

/-- `operator>>`. fw_uint_on_masked_uint.hpp:153-158. -/
def shr (a : U128) (s : ℕ) : U128 :=
  if s = 0 then a
  else if s < 64 then ⟨a.hi >>> s, (a.lo >>> s) ||| u64 (a.hi <<< (64 - s))⟩
  else ⟨0, a.hi >>> (s - 64)⟩

/-- `operator<<`. fw_uint_on_masked_uint.hpp:160-165. -/
def shl (a : U128) (s : ℕ) : U128 :=
  if s = 0 then a
  else if s < 64 then ⟨u64 (a.hi <<< s) ||| (a.lo >>> (64 - s)), u64 (a.lo <<< s)⟩
  else ⟨u64 (a.lo <<< (s - 64)), 0⟩

/-- `m32`: the arguments are converted to `uint32_t` and multiplied as `uint32_t`, so the product is reduced
modulo `2^32` before it is widened. fw_uint_on_masked_uint.hpp:131-132. -/
def m32 (a b : ℕ) : U128 := ⟨0, (a % 2 ^ 32) * (b % 2 ^ 32) % 2 ^ 32⟩

/-- `m64`. fw_uint_on_masked_uint.hpp:134-135. -/
def m64 (a b : ℕ) : U128 :=
  add (add (add (m32 a b) (shl (m32 (a >>> 32) b) 32)) (shl (m32 a (b >>> 32)) 32))
    (shl (m32 (a >>> 32) (b >>> 32)) 64)

/-- `operator*`. fw_uint_on_masked_uint.hpp:139-142. -/
def mul (a b : U128) : U128 :=
  add (add (m64 a.lo b.lo) (shl (m64 a.lo b.hi) 64)) (shl (m64 a.hi b.lo) 64)

/-- `operator==`. fw_uint_on_masked_uint.hpp:167-168. -/
def eq (a b : U128) : Bool := decide (a.lo = b.lo) && decide (a.hi = b.hi)
/-- `operator<=`. fw_uint_on_masked_uint.hpp:170-171. -/
def le (a b : U128) : Bool := if a.hi < b.hi then true else if a.hi > b.hi then false else decide (a.lo ≤ b.lo)
/-- `operator>=`. fw_uint_on_masked_uint.hpp:173-174. -/
def ge (a b : U128) : Bool := if a.hi > b.hi then true else if a.hi < b.hi then false else decide (a.lo ≥ b.lo)
/-- `operator>`. fw_uint_on_masked_uint.hpp:176-177. -/
def gt (a b : U128) : Bool := if a.hi > b.hi then true else if a.hi < b.hi then false else decide (a.lo > b.lo)
/-- `operator<`. fw_uint_on_masked_uint.hpp:179-180. -/
def lt (a b : U128) : Bool := if a.hi < b.hi then true else if a.hi > b.hi then false else decide (a.lo < b.lo)

end Thls.Fallback

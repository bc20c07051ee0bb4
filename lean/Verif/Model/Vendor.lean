import Verif.Model.FwHelpers

/-! # The synthesis backends of `fw_uint` (fw_uint_on_ap_uint.hpp, fw_uint_on_ac_uint.hpp)

The vendor types are replaced by their documented behaviour: an `ap_uint<n>`/`ac_int<n,false>` holds a number below `2^n`; `+`, `-`,
`*`, the bitwise operators and the comparisons are those of the integers (the vendor result types are wide enough), `<<` and
`>>` keep the width of the left operand, and an assignment to a narrower type keeps the low bits. The bits of a `fw_uint<0>` are
one vendor bit (`SafeW`), which can be set. -/

namespace Thls

/-- Assignment of an integer to an `n`-bit vendor type: the low bits are kept.
Library behaviour, used throughout fw_uint_on_ap_uint.hpp and fw_uint_on_ac_uint.hpp, e.g. fw_uint_on_ap_uint.hpp:195-224. -/
def vtrunc (n : ℕ) (z : ℤ) : ℕ := (z % 2 ^ n).toNat

/-- `SafeW`. fw_uint_on_ap_uint.hpp:41, fw_uint_on_ac_uint.hpp:35. -/
def safeW (W : ℕ) : ℕ := if W = 0 then 1 else W

/-- The primitive operations of an implementation of `fw_uint`; everything in fw_uint.hpp is written in terms of them. fw_uint.hpp:1-130. -/
structure Backend where
  ofInt : ℕ → ℤ → Option ℕ
  add : ℕ → ℕ → ℕ → Option ℕ
  addInt : ℕ → ℕ → ℤ → Option ℕ
  sub : ℕ → ℕ → ℕ → Option ℕ
  subInt : ℕ → ℕ → ℤ → Option ℕ
  mul : ℕ → ℕ → ℕ → ℕ → Option ℕ
  square : ℕ → ℕ → Option ℕ
  not : ℕ → ℕ → Option ℕ
  and : ℕ → ℕ → ℕ → Option ℕ
  or : ℕ → ℕ → ℕ → Option ℕ
  xor : ℕ → ℕ → ℕ → Option ℕ
  andInt : ℕ → ℕ → ℤ → Option ℕ
  orInt : ℕ → ℕ → ℤ → Option ℕ
  shr : ℕ → ℕ → ℤ → Option ℕ
  shl : ℕ → ℕ → ℤ → Option ℕ
  lt : ℕ → ℕ → Option ℕ
  le : ℕ → ℕ → Option ℕ
  eq : ℕ → ℕ → Option ℕ
  ge : ℕ → ℕ → Option ℕ
  gt : ℕ → ℕ → Option ℕ
  ne : ℕ → ℕ → Option ℕ
  getBits : ℕ → ℕ → ℕ → ℕ → Option ℕ
  concat : ℕ → ℕ → ℕ → ℕ → Option ℕ
  checkedCast : ℕ → ℕ → ℕ → Option ℕ

/-- The simulation backend (fw_uint_on_masked_uint.hpp), as modelled in `Verif/Model/Masked.lean`. fw_uint_on_masked_uint.hpp:354-756. -/
def maskedBackend : Backend where
  ofInt := Masked.ofInt
  add := Masked.add
  addInt := Masked.addInt
  sub := Masked.sub
  subInt := Masked.subInt
  mul := Masked.mul
  square := Masked.square
  not := Masked.not
  and := Masked.and
  or := Masked.or
  xor := Masked.xor
  andInt := Masked.andInt
  orInt := Masked.orInt
  shr := Masked.shr
  shl := Masked.shl
  lt := Masked.lt
  le := Masked.le
  eq := Masked.eq
  ge := Masked.ge
  gt := Masked.gt
  ne := Masked.ne
  getBits := Masked.getBits
  concat := Masked.concat
  checkedCast := Masked.checkedCast

namespace Ap

/-- Constructor from `int`, with its assertions. fw_uint_on_ap_uint.hpp:87-93. -/
def ofInt (W : ℕ) (v : ℤ) : Option ℕ := if 0 ≤ v ∧ v < 2 ^ safeW W then some (vtrunc (safeW W) v) else none
/-- Constructor from `bool` (width one); the result of the comparisons. fw_uint_on_ap_uint.hpp:72-76. -/
def ofBool (b : Bool) : Option ℕ := some b.toNat
/-- `operator+(fw_uint)`. fw_uint_on_ap_uint.hpp:195-199. -/
def add (W a b : ℕ) : Option ℕ := some (vtrunc (safeW W) ((a : ℤ) + b))
/-- `operator+(int)`. fw_uint_on_ap_uint.hpp:201-204. -/
def addInt (W a : ℕ) (b : ℤ) : Option ℕ := some (vtrunc (safeW W) ((a : ℤ) + b))
/-- `operator-(fw_uint)`. fw_uint_on_ap_uint.hpp:206-210. -/
def sub (W a b : ℕ) : Option ℕ := some (vtrunc (safeW W) ((a : ℤ) - b))
/-- `operator-(int)`. fw_uint_on_ap_uint.hpp:212-215. -/
def subInt (W a : ℕ) (b : ℤ) : Option ℕ := some (vtrunc (safeW W) ((a : ℤ) - b))
/-- `operator*`. fw_uint_on_ap_uint.hpp:218-224. -/
def mul (W O a b : ℕ) : Option ℕ := some (vtrunc (safeW (O + W)) ((a : ℤ) * b))
/-- `square`. fw_uint_on_ap_uint.hpp:487-492. -/
def square (W a : ℕ) : Option ℕ := some (vtrunc (safeW (2 * W)) ((a : ℤ) * a))
/-- `operator~`; the complement is that of the integers. fw_uint_on_ap_uint.hpp:283-284. -/
def not (W a : ℕ) : Option ℕ := some (vtrunc (safeW W) (-(a : ℤ) - 1))
/-- `operator&(fw_uint)`. fw_uint_on_ap_uint.hpp:286-289. -/
def and (W a b : ℕ) : Option ℕ := some (vtrunc (safeW W) ((a &&& b : ℕ) : ℤ))
/-- `operator|(fw_uint)`. fw_uint_on_ap_uint.hpp:297-301. -/
def or (W a b : ℕ) : Option ℕ := some (vtrunc (safeW W) ((a ||| b : ℕ) : ℤ))
/-- `operator^(fw_uint)`. fw_uint_on_ap_uint.hpp:309-313. -/
def xor (W a b : ℕ) : Option ℕ := some (vtrunc (safeW W) ((a ^^^ b : ℕ) : ℤ))
/-- `operator&(int)`. fw_uint_on_ap_uint.hpp:291-295. -/
def andInt (W a : ℕ) (b : ℤ) : Option ℕ :=
  if b < 0 then none else some (vtrunc (safeW W) ((a &&& b.toNat : ℕ) : ℤ))
/-- `operator|(int)`: unlike the simulation backend it does not reject an argument of all ones, and it truncates one that is
too large. (`operator^(int)` is ambiguous and does not compile.) fw_uint_on_ap_uint.hpp:303-307. -/
def orInt (W a : ℕ) (b : ℤ) : Option ℕ :=
  if b < 0 then none else some (vtrunc (safeW W) ((a ||| b.toNat : ℕ) : ℤ))
/-- `operator>>`. fw_uint_on_ap_uint.hpp:322-327. -/
def shr (W a : ℕ) (dist : ℤ) : Option ℕ :=
  if 0 ≤ dist ∧ dist < W then some (vtrunc (safeW W) ((a / 2 ^ dist.toNat : ℕ) : ℤ)) else none
/-- `operator<<`. fw_uint_on_ap_uint.hpp:329-334. -/
def shl (W a : ℕ) (dist : ℤ) : Option ℕ :=
  if 0 ≤ dist ∧ dist < W then some (vtrunc (safeW W) ((a * 2 ^ dist.toNat : ℕ) : ℤ)) else none
/-- `operator<`. fw_uint_on_ap_uint.hpp:226-227. -/
def lt (a b : ℕ) : Option ℕ := ofBool (decide (a < b))
/-- `operator<=`. fw_uint_on_ap_uint.hpp:235-236. -/
def le (a b : ℕ) : Option ℕ := ofBool (decide (a ≤ b))
/-- `operator==`. fw_uint_on_ap_uint.hpp:244-245. -/
def eq (a b : ℕ) : Option ℕ := ofBool (decide (a = b))
/-- `operator>=`. fw_uint_on_ap_uint.hpp:253-254. -/
def ge (a b : ℕ) : Option ℕ := ofBool (decide (a ≥ b))
/-- `operator>`. fw_uint_on_ap_uint.hpp:262-263. -/
def gt (a b : ℕ) : Option ℕ := ofBool (decide (a > b))
/-- `operator!=`. fw_uint_on_ap_uint.hpp:271-272. -/
def ne (a b : ℕ) : Option ℕ := ofBool (decide (a ≠ b))
/-- The `int` overloads of the comparisons. fw_uint_on_ap_uint.hpp:229-233,238-242,247-251,256-260,265-269,274-278. -/
def cmpInt (cmp : ℤ → ℤ → Bool) (a : ℕ) (o : ℤ) : Option ℕ := if o < 0 then none else ofBool (cmp a o)
/-- `get_bits<HI,LO>`. `none`: `range(HI,LO)` with `HI >= W` is an error of the vendor library, and with `HI < LO` it reverses the
bits; neither is modelled. fw_uint_on_ap_uint.hpp:395-399. -/
def getBits (HI LO W x : ℕ) : Option ℕ :=
  if LO ≤ HI ∧ HI < W then some (vtrunc (safeW (HI + 1 - LO)) ((x / 2 ^ LO % 2 ^ (HI + 1 - LO) : ℕ) : ℤ)) else none
/-- `concat` of two, with the specialisations for zero widths; the vendor's `(a,b)` puts `a` above the `WB` bits of `b`.
fw_uint_on_ap_uint.hpp:410-460. -/
def concat (WA WB a b : ℕ) : Option ℕ :=
  if WB = 0 then some a
  else if WA = 0 then some b
  else some (vtrunc (WA + WB) ((a * 2 ^ WB + b : ℕ) : ℤ))
/-- `checked_cast`. fw_uint_on_ap_uint.hpp:475-484. -/
def checkedCast (WD WS s : ℕ) : Option ℕ := if WD = WS then some (vtrunc (safeW WD) s) else none

/-- The loop of the `mpz_t` constructor; `fuel` bounds the number of 32-bit chunks. `curr<<offset` keeps the 32 bits of `curr`.
fw_uint_on_ap_uint.hpp:181-187. -/
def ofMpzLoop (W : ℕ) : ℕ → ℕ → ℕ → ℕ → ℕ
  | 0, _, _, acc => acc
  | fuel + 1, tmp, offset, acc =>
    if tmp = 0 then acc
    else ofMpzLoop W fuel (tmp / 2 ^ 32) (offset + 32)
      (vtrunc (safeW W) ((acc ||| (tmp % 2 ^ 32 * 2 ^ offset % 2 ^ 32) : ℕ) : ℤ))
/-- Constructor from `mpz_t` (non-negative argument). The test chooses `mpz_get_ui`, which returns the low 64 bits, for the
*wide* words. `none`: "mpz is too large". fw_uint_on_ap_uint.hpp:166-192. -/
def ofMpz (W x : ℕ) : Option ℕ :=
  if W < max 1 (Nat.size x) then none
  else if 32 ≤ W then some (vtrunc (safeW W) ((x % 2 ^ 64 : ℕ) : ℤ))
  else some (ofMpzLoop W (x + 1) x 0 0)

end Ap

/-- The Vivado HLS backend. fw_uint_on_ap_uint.hpp:35-492. -/
def apBackend : Backend where
  ofInt := Ap.ofInt
  add := Ap.add
  addInt := Ap.addInt
  sub := Ap.sub
  subInt := Ap.subInt
  mul := Ap.mul
  square := Ap.square
  not := Ap.not
  and := Ap.and
  or := Ap.or
  xor := Ap.xor
  andInt := Ap.andInt
  orInt := Ap.orInt
  shr := Ap.shr
  shl := Ap.shl
  lt := Ap.lt
  le := Ap.le
  eq := Ap.eq
  ge := Ap.ge
  gt := Ap.gt
  ne := Ap.ne
  getBits := Ap.getBits
  concat := Ap.concat
  checkedCast := Ap.checkedCast

namespace Ac

/-- The number of bits of the shift counts, `thls_ctLog2Ceil(x)`; the constants are below 2^31. fw_uint.hpp:131-141. -/
def distW (x : ℕ) : ℕ := (Masked.log2Ceil 31 x).getD 0
/-- `overflow()`. fw_uint_on_ac_uint.hpp:39-42. -/
def overflow (W : ℕ) : ℕ := vtrunc (safeW W + 1) ((1 * 2 ^ vtrunc (distW (safeW W + 1)) (safeW W) : ℕ) : ℤ)
/-- Constructor from `int`. fw_uint_on_ac_uint.hpp:76-82. -/
def ofInt (W : ℕ) (v : ℤ) : Option ℕ := if 0 ≤ v ∧ v < overflow W then some (vtrunc (safeW W) v) else none
/-- Constructor from `bool`. fw_uint_on_ac_uint.hpp:70-74. -/
def ofBool (b : Bool) : Option ℕ := some b.toNat
/-- `operator+(fw_uint)`. fw_uint_on_ac_uint.hpp:188-192. -/
def add (W a b : ℕ) : Option ℕ := some (vtrunc (safeW W) ((a : ℤ) + b))
/-- `operator+(int)`. fw_uint_on_ac_uint.hpp:194-197. -/
def addInt (W a : ℕ) (b : ℤ) : Option ℕ := some (vtrunc (safeW W) ((a : ℤ) + b))
/-- `operator-(fw_uint)`. fw_uint_on_ac_uint.hpp:199-202. -/
def sub (W a b : ℕ) : Option ℕ := some (vtrunc (safeW W) ((a : ℤ) - b))
/-- `operator-(int)`. fw_uint_on_ac_uint.hpp:204-207. -/
def subInt (W a : ℕ) (b : ℤ) : Option ℕ := some (vtrunc (safeW W) ((a : ℤ) - b))
/-- `operator*`. fw_uint_on_ac_uint.hpp:210-214. -/
def mul (W O a b : ℕ) : Option ℕ := some (vtrunc (safeW (O + W)) ((a : ℤ) * b))
/-- `square`. fw_uint_on_ac_uint.hpp:480-485. -/
def square (W a : ℕ) : Option ℕ := some (vtrunc (safeW (2 * W)) ((a : ℤ) * a))
/-- `operator~`. fw_uint_on_ac_uint.hpp:273-274. -/
def not (W a : ℕ) : Option ℕ := some (vtrunc (safeW W) (-(a : ℤ) - 1))
/-- `operator&(fw_uint)`. fw_uint_on_ac_uint.hpp:276-279. -/
def and (W a b : ℕ) : Option ℕ := some (vtrunc (safeW W) ((a &&& b : ℕ) : ℤ))
/-- `operator|(fw_uint)`. fw_uint_on_ac_uint.hpp:287-290. -/
def or (W a b : ℕ) : Option ℕ := some (vtrunc (safeW W) ((a ||| b : ℕ) : ℤ))
/-- `operator^(fw_uint)`. fw_uint_on_ac_uint.hpp:298-301. -/
def xor (W a b : ℕ) : Option ℕ := some (vtrunc (safeW W) ((a ^^^ b : ℕ) : ℤ))
/-- `operator&(int)`. fw_uint_on_ac_uint.hpp:281-285. -/
def andInt (W a : ℕ) (b : ℤ) : Option ℕ :=
  if b < 0 then none else some (vtrunc (safeW W) ((a &&& b.toNat : ℕ) : ℤ))
/-- `operator|(int)`. fw_uint_on_ac_uint.hpp:292-296. -/
def orInt (W a : ℕ) (b : ℤ) : Option ℕ :=
  if b < 0 then none else some (vtrunc (safeW W) ((a ||| b.toNat : ℕ) : ℤ))
/-- `operator^(int)`. fw_uint_on_ac_uint.hpp:303-307. -/
def xorInt (W a : ℕ) (b : ℤ) : Option ℕ :=
  if b < 0 then none else some (vtrunc (safeW W) ((a ^^^ b.toNat : ℕ) : ℤ))
/-- `operator>>`: the count goes through a vendor type of `thls_ctLog2Ceil(W)` bits. fw_uint_on_ac_uint.hpp:310-316. -/
def shr (W a : ℕ) (dist : ℤ) : Option ℕ :=
  if 0 ≤ dist ∧ dist < W then some (vtrunc (safeW W) ((a / 2 ^ vtrunc (distW W) dist : ℕ) : ℤ)) else none
/-- `operator<<`. fw_uint_on_ac_uint.hpp:318-324. -/
def shl (W a : ℕ) (dist : ℤ) : Option ℕ :=
  if 0 ≤ dist ∧ dist < W then some (vtrunc (safeW W) ((a * 2 ^ vtrunc (distW W) dist : ℕ) : ℤ)) else none
/-- `operator<`. fw_uint_on_ac_uint.hpp:216-217. -/
def lt (a b : ℕ) : Option ℕ := ofBool (decide (a < b))
/-- `operator<=`. fw_uint_on_ac_uint.hpp:225-226. -/
def le (a b : ℕ) : Option ℕ := ofBool (decide (a ≤ b))
/-- `operator==`. fw_uint_on_ac_uint.hpp:234-235. -/
def eq (a b : ℕ) : Option ℕ := ofBool (decide (a = b))
/-- `operator>=`. fw_uint_on_ac_uint.hpp:243-244. -/
def ge (a b : ℕ) : Option ℕ := ofBool (decide (a ≥ b))
/-- `operator>`. fw_uint_on_ac_uint.hpp:252-253. -/
def gt (a b : ℕ) : Option ℕ := ofBool (decide (a > b))
/-- `operator!=`. fw_uint_on_ac_uint.hpp:261-262. -/
def ne (a b : ℕ) : Option ℕ := ofBool (decide (a ≠ b))
/-- The `int` overloads of the comparisons. fw_uint_on_ac_uint.hpp:219-223,228-232,237-241,246-250,255-259,264-268. -/
def cmpInt (cmp : ℤ → ℤ → Bool) (a : ℕ) (o : ℤ) : Option ℕ := if o < 0 then none else ofBool (cmp a o)
/-- `get_bits<HI,LO>`: `slc<n>(LO)` reads `n` bits, those above the word being zero; nothing is asserted about `HI`.
fw_uint_on_ac_uint.hpp:385-390. -/
def getBits (HI LO _W x : ℕ) : Option ℕ := some (x / 2 ^ LO % 2 ^ safeW (HI + 1 - LO))
/-- The vendor's `set_slc(lsb, v)` with `v` of `n` bits. Library behaviour, used at fw_uint_on_ac_uint.hpp:177,411-412. -/
def setSlc (acc lsb n v : ℕ) : ℕ := acc % 2 ^ lsb + v * 2 ^ lsb + acc / 2 ^ (lsb + n) * 2 ^ (lsb + n)
/-- `concat` of two. fw_uint_on_ac_uint.hpp:401-453. -/
def concat (WA WB a b : ℕ) : Option ℕ :=
  if WB = 0 then some a
  else if WA = 0 then some b
  else some (setSlc (setSlc 0 0 WB b) WB WA a)
/-- `checked_cast`. fw_uint_on_ac_uint.hpp:468-477. -/
def checkedCast (WD WS s : ℕ) : Option ℕ := if WD = WS then some (vtrunc (safeW WD) s) else none

/-- The loop of the `mpz_t` constructor. fw_uint_on_ac_uint.hpp:174-180. -/
def ofMpzLoop : ℕ → ℕ → ℕ → ℕ → ℕ
  | 0, _, _, acc => acc
  | fuel + 1, tmp, offset, acc =>
    if tmp = 0 then acc else ofMpzLoop fuel (tmp / 2 ^ 32) (offset + 32) (setSlc acc offset 32 (tmp % 2 ^ 32))
/-- Constructor from `mpz_t`, with the same test as the `ap_uint` backend. fw_uint_on_ac_uint.hpp:159-185. -/
def ofMpz (W x : ℕ) : Option ℕ :=
  if W < max 1 (Nat.size x) then none
  else if 32 ≤ W then some (vtrunc (safeW W) ((x % 2 ^ 64 : ℕ) : ℤ))
  else some (vtrunc (safeW W) (ofMpzLoop (x + 1) x 0 0 : ℕ))

end Ac

/-- The `ac_int` backend. fw_uint_on_ac_uint.hpp:30-485. -/
def acBackend : Backend where
  ofInt := Ac.ofInt
  add := Ac.add
  addInt := Ac.addInt
  sub := Ac.sub
  subInt := Ac.subInt
  mul := Ac.mul
  square := Ac.square
  not := Ac.not
  and := Ac.and
  or := Ac.or
  xor := Ac.xor
  andInt := Ac.andInt
  orInt := Ac.orInt
  shr := Ac.shr
  shl := Ac.shl
  lt := Ac.lt
  le := Ac.le
  eq := Ac.eq
  ge := Ac.ge
  gt := Ac.gt
  ne := Ac.ne
  getBits := Ac.getBits
  concat := Ac.concat
  checkedCast := Ac.checkedCast

/-! ## The helpers of fw_uint.hpp over any backend -/

namespace Backend
variable (V : Backend)

/-- Ternary `concat`. fw_uint_on_ap_uint.hpp:463-466, fw_uint_on_ac_uint.hpp:456-459. -/
def concat3 (WA WB WC a b c : ℕ) : Option ℕ := do V.concat WA (WB + WC) a (← V.concat WB WC b c)
/-- Four-way `concat`. fw_uint_on_ap_uint.hpp:469-472, fw_uint_on_ac_uint.hpp:462-465. -/
def concat4 (WA WB WC WD a b c d : ℕ) : Option ℕ := do
  V.concat (WA + WB) (WC + WD) (← V.concat WA WB a b) (← V.concat WC WD c d)
/-- `zg`. fw_uint.hpp:245-249. -/
def zg (W : ℕ) : Option ℕ := V.ofInt W 0
/-- `og`. fw_uint.hpp:256-260. -/
def og (W : ℕ) : Option ℕ := do V.not W (← V.zg W)
/-- `take_lsb`. fw_uint.hpp:288-292. -/
def takeLsb (W x : ℕ) : Option ℕ := V.getBits 0 0 W x
/-- `drop_lsb`. fw_uint.hpp:294-298. -/
def dropLsb (W x : ℕ) : Option ℕ := V.getBits (W - 1) 1 W x
/-- `take_msb`. fw_uint.hpp:300-304. -/
def takeMsb (W x : ℕ) : Option ℕ := V.getBits (W - 1) (W - 1) W x
/-- `drop_msb`. fw_uint.hpp:306-310. -/
def dropMsb (W x : ℕ) : Option ℕ := V.getBits (W - 2) 0 W x
/-- `take_lsbs<B>`. fw_uint.hpp:313-323. -/
def takeLsbs (B W x : ℕ) : Option ℕ := if B ≤ W then (if B = 0 then V.zg B else V.getBits (B - 1) 0 W x) else none
/-- `drop_lsbs<B>`. fw_uint.hpp:325-335. -/
def dropLsbs (B W x : ℕ) : Option ℕ :=
  if B ≤ W then (if B = W then V.zg (W - B) else V.getBits (W - 1) B W x) else none
/-- `take_msbs<B>`. fw_uint.hpp:337-347. -/
def takeMsbs (B W x : ℕ) : Option ℕ :=
  if B ≤ W then (if B = 0 then V.zg B else V.getBits (W - 1) (W - B) W x) else none
/-- `drop_msbs<B>`. fw_uint.hpp:349-359. -/
def dropMsbs (B W x : ℕ) : Option ℕ :=
  if B ≤ W then (if B = W then V.zg (W - B) else V.getBits (W - 1 - B) 0 W x) else none
/-- `zpad_hi<P>`. fw_uint.hpp:370-374. -/
def zpadHi (P W x : ℕ) : Option ℕ := do V.concat P W (← V.zg P) x
/-- `opad_hi<P>`. fw_uint.hpp:376-380. -/
def opadHi (P W x : ℕ) : Option ℕ := do V.concat P W (← V.og P) x
/-- `zpad_lo<P>`. fw_uint.hpp:382-386. -/
def zpadLo (P W x : ℕ) : Option ℕ := do V.concat W P x (← V.zg P)
/-- `opad_lo<P>`. fw_uint.hpp:388-392. -/
def opadLo (P W x : ℕ) : Option ℕ := do V.concat W P x (← V.og P)
/-- `extu<B>`. fw_uint.hpp:396-401. -/
def extu (B W x : ℕ) : Option ℕ := if W ≤ B then V.zpadHi (B - W) W x else none
/-- `resize<B>`. fw_uint.hpp:403-407. -/
def resize (B W x : ℕ) : Option ℕ := do V.takeLsbs B (B - W + W) (← V.zpadHi (B - W) W x)
/-- `add_with_cin`. fw_uint.hpp:409-415. -/
def addWithCin (W x y cin : ℕ) : Option ℕ := do V.add W (← V.add W x y) (← V.zpadHi (W - 1) 1 cin)
/-- `add_sub`. fw_uint.hpp:417-421. -/
def addSub (W doSub x y : ℕ) : Option ℕ := do
  let ny ← V.not W y
  V.addWithCin W x (if doSub = 1 then ny else y) doSub
/-- `add_cin`. fw_uint.hpp:424-428. -/
def addCin (W x cin : ℕ) : Option ℕ := do V.add W x (← V.zpadHi (W - 1) 1 cin)
/-- `copybit<W>`. fw_uint.hpp:552-556. -/
def copybit (W b : ℕ) : Option ℕ := if b = 1 then V.og W else V.zg W
/-- `concat_array_impl<HI,LO>::go`. fw_uint.hpp:662-682. -/
def concatArray (W lo : ℕ) (x : ℕ → ℕ) : ℕ → Option ℕ
  | 0 => some (x lo)
  | n + 1 => do V.concat W ((n + 1) * W) (x (lo + n + 1)) (← concatArray W lo x n)

end Backend

/-! ## Conversions to machine integers -/

/-- `to_int` of the simulation backend: asserts the range. fw_uint_on_masked_uint.hpp:641-645. -/
def Masked.toInt (x : ℕ) : Option ℤ := if x ≤ 2 ^ 31 - 1 then some x else none
/-- `to_int` of the synthesis backends: the conversion of the vendor type to `int` keeps the low 32 bits, with their sign.
fw_uint_on_ap_uint.hpp:369-372, fw_uint_on_ac_uint.hpp:359-362. -/
def vendorToInt (x : ℕ) : ℤ := if x % 2 ^ 32 < 2 ^ 31 then ((x % 2 ^ 32 : ℕ) : ℤ) else ((x % 2 ^ 32 : ℕ) : ℤ) - 2 ^ 32
/-- `to_uint64` of the simulation backend: asserts that the value fits. fw_uint_on_masked_uint.hpp:647-651. -/
def Masked.toUint64 (x : ℕ) : Option ℕ := if x = x % 2 ^ 64 then some (x % 2 ^ 64) else none
/-- `to_uint64` of the synthesis backends: asserts that the width fits. fw_uint_on_ap_uint.hpp:374-378,
fw_uint_on_ac_uint.hpp:364-368. -/
def vendorToUint64 (W x : ℕ) : Option ℕ := if W ≤ 64 then some (x % 2 ^ 64) else none

/-- The loop of `to_mpz_t` of the synthesis backends. fw_uint_on_ap_uint.hpp:349-366, fw_uint_on_ac_uint.hpp:339-356. -/
def vendorToMpzLoop (x : ℕ) : ℕ → ℕ → ℕ → ℕ
  | 0, _, res => res
  | n + 1, offset, res => vendorToMpzLoop x n (offset + 32) (res + x / 2 ^ offset % 2 ^ 64 % 2 ^ 32 * 2 ^ offset)
/-- `to_mpz_t`; the loop runs while `todo = W - 32 i` is positive. fw_uint_on_ap_uint.hpp:349-366, fw_uint_on_ac_uint.hpp:339-356. -/
def vendorToMpz (W x : ℕ) : ℕ := vendorToMpzLoop x ((W + 31) / 32) 0 0

/-- The loop of the string constructor of the synthesis backends: the word has the width of the value. fw_uint_on_ap_uint.hpp:114-151,
fw_uint_on_ac_uint.hpp:103-143. -/
def vendorParseLoop (W : ℕ) : ℕ → ℕ → List Char → Option ℕ
  | 0, bits, rest => if rest = [] then some bits else none
  | _ + 1, _, [] => none
  | n + 1, bits, c :: rest =>
    if c = '_' then vendorParseLoop W (n + 1) bits rest
    else if c = '0' then vendorParseLoop W n (vtrunc (safeW W) ((bits * 2 % 2 ^ safeW W + 0 : ℕ) : ℤ)) rest
    else if c = '1' then vendorParseLoop W n (vtrunc (safeW W) ((bits * 2 % 2 ^ safeW W + 1 : ℕ) : ℤ)) rest
    else none

/-- The string constructor of the synthesis backends, binary form (the other forms are vendor functions).
fw_uint_on_ap_uint.hpp:114-152, fw_uint_on_ac_uint.hpp:103-144. -/
def vendorOfString (W : ℕ) : List Char → Option ℕ
  | '0' :: 'b' :: rest => vendorParseLoop W W 0 rest
  | _ => none

/-- `to_string` of the synthesis backends. fw_uint_on_ap_uint.hpp:337-347, fw_uint_on_ac_uint.hpp:327-337. -/
def vendorToStringLoop (x : ℕ) : ℕ → List Char
  | 0 => []
  | i + 1 =>
    let acc := vendorToStringLoop x i
    let acc := if i % 8 = 0 ∧ i ≠ 0 then '_' :: acc else acc
    (if x.testBit i then '1' else '0') :: acc
/-- `to_string`. fw_uint_on_ap_uint.hpp:337-347, fw_uint_on_ac_uint.hpp:327-337. -/
def vendorToString (W x : ℕ) : List Char := '0' :: 'b' :: vendorToStringLoop x W

end Thls

/-
Model of impurityModel/ed/product_state_representation.py
Python values:
  str       -> List Char
  tuple     -> List ℕ     (indices are natural numbers)
  int       -> ℕ          (negative ints are no product states and are left out)
  bitarray  -> List Bool
  bytes     -> List UInt8
-/
import Verif.Py.Basic

namespace Verif.Psr

abbrev PyStr := List Char
abbrev PyTuple := List ℕ
abbrev Bits := List Bool
abbrev Bytes := List UInt8

/-- The digit of Python's `int(s, 2)`. -/
def bitVal : Char → Option ℕ
  | '0' => some 0
  | '1' => some 1
  | _ => none

/-- The accumulator loop of `int(s, 2)`. -/
def intBase2 : ℕ → PyStr → Py ℕ
  | acc, [] => .ok acc
  | acc, c :: cs => match bitVal c with
    | some b => intBase2 (2 * acc + b) cs
    | none => .error .valueError

/-- product_state_representation.py:35-44 `str2int`: `int(s, 2)`; the empty
string and every character but `0`/`1` is a `ValueError`.
Simplification: Python's `int` also accepts blanks, underscores, a sign and the
prefix `0b`; these spellings are no product states and raise here. -/
def str2int (s : PyStr) : Py ℕ :=
  if s = [] then .error .valueError else intBase2 0 s

/-- Python's `bin(i)[2:]` for `i ≥ 0`. -/
def binDigits (i : ℕ) : PyStr :=
  if i < 2 then [if i = 0 then '0' else '1']
  else binDigits (i / 2) ++ [if i % 2 = 0 then '0' else '1']
termination_by i
decreasing_by omega

/-- product_state_representation.py:47-61 `int2str`. `"0" * k` is empty for
negative `k`, as is truncated subtraction. -/
def int2str (i n : ℕ) : PyStr :=
  let s := binDigits i
  List.replicate (n - s.length) '0' ++ s

/-- product_state_representation.py:64-74 `str2tuple`. -/
def str2tuple (s : PyStr) : PyTuple :=
  s.zipIdx.filterMap fun (char, pos) => if char = '1' then some pos else none

/-- product_state_representation.py:77-95 `tuple2str`. -/
def tuple2str (t : PyTuple) (n : ℕ) : PyStr :=
  (List.range n).foldl (fun s i => if i ∈ t then s ++ ['1'] else s ++ ['0']) []

/-- product_state_representation.py:98-110 `tuple2int`. -/
def tuple2int (t : PyTuple) (n : ℕ) : Py ℕ := str2int (tuple2str t n)

/-- product_state_representation.py:113-125 `int2tuple`. -/
def int2tuple (i n : ℕ) : PyTuple := str2tuple (int2str i n)

/-- One byte of `bitarray.tobytes()`: big-endian, missing bits are zero. -/
def packByte (b : Bits) : UInt8 :=
  UInt8.ofNat ((List.range 8).foldl (fun acc j => 2 * acc + (if b.getD j false then 1 else 0)) 0)

/-- The eight bits that `bitarray.frombytes` reads from one byte. -/
def unpackByte (u : UInt8) : Bits := (List.range 8).map fun j => u.toNat.testBit (7 - j)

/-- `bitarray.tobytes()` (third-party package `bitarray`, default big-endian):
byte number `k` holds the bits `8k … 8k+7`, the last byte is zero padded. -/
def tobytes (b : Bits) : Bytes :=
  (List.range ((b.length + 7) / 8)).map fun k => packByte ((b.drop (8 * k)).take 8)

/-- `bitarray(0)` followed by `frombytes`. -/
def frombytes (s : Bytes) : Bits := s.flatMap unpackByte

/-- product_state_representation.py:131-141 `bitarray2bytes`. -/
def bitarray2bytes (b : Bits) : Bytes := tobytes b

/-- product_state_representation.py:144-161 `bytes2bitarray`. -/
def bytes2bitarray (s : Bytes) (n : ℕ) : Bits := (frombytes s).take n

/-- `bitarray(s)` for a string: one bit per character, `ValueError` for a
character other than `0`/`1`. -/
def bitarrayOfStr (s : PyStr) : Py Bits :=
  s.mapM fun c => if c = '1' then .ok true else if c = '0' then .ok false else .error .valueError

/-- `bitarray.to01()`. -/
def to01 (b : Bits) : PyStr := b.map fun x => if x then '1' else '0'

/-- product_state_representation.py:164-176 `int2bitarray`. -/
def int2bitarray (i n : ℕ) : Py Bits := bitarrayOfStr (int2str i n)

/-- product_state_representation.py:179-189 `bitarray2int`. -/
def bitarray2int (b : Bits) : Py ℕ := str2int (to01 b)

/-- product_state_representation.py:192-202 `bitarray2str`. -/
def bitarray2str (b : Bits) : PyStr := to01 b

/-- product_state_representation.py:205-215 `str2bitarray`. -/
def str2bitarray (s : PyStr) : Py Bits := bitarrayOfStr s

/-- product_state_representation.py:218-230 `tuple2bitarray`. -/
def tuple2bitarray (t : PyTuple) (n : ℕ) : Py Bits := bitarrayOfStr (tuple2str t n)

/-- product_state_representation.py:233-243 `bitarray2tuple`. -/
def bitarray2tuple (b : Bits) : PyTuple := str2tuple (bitarray2str b)

/-- product_state_representation.py:246-258 `tuple2bytes`. -/
def tuple2bytes (t : PyTuple) (n : ℕ) : Py Bytes := do
  let b ← tuple2bitarray t n
  return tobytes b

/-- product_state_representation.py:261-273 `bytes2tuple`. -/
def bytes2tuple (s : Bytes) (n : ℕ) : PyTuple := bitarray2tuple (bytes2bitarray s n)

/-- product_state_representation.py:276-286 `str2bytes`. -/
def str2bytes (s : PyStr) : Py Bytes := do
  let b ← str2bitarray s
  return bitarray2bytes b

/-- product_state_representation.py:289-301 `bytes2str`. -/
def bytes2str (s : Bytes) (n : ℕ) : PyStr := bitarray2str (bytes2bitarray s n)

/-- product_state_representation.py:304-316 `int2bytes`. -/
def int2bytes (i n : ℕ) : Py Bytes := do
  let b ← int2bitarray i n
  return bitarray2bytes b

/-- product_state_representation.py:319-331 `bytes2int`. -/
def bytes2int (s : Bytes) (n : ℕ) : Py ℕ := bitarray2int (bytes2bitarray s n)

end Verif.Psr

/-!
# Values of primary key columns and their order

Independent of the model: the PostgreSQL types that may form a key, their values, and
the order of their default operator classes.
-/

namespace Verif.KeyBitmap

/-- The types. -/
inductive PgType where
  | bool | char | int2 | int4 | date | oid | float4 | int8 | time | timestamp | timestamptz
  | money | float8 | macaddr | macaddr8 | uuid
deriving DecidableEq, Repr

/-- The number of the type in PostgreSQL's catalog. -/
def PgType.number : PgType → Nat
  | .bool => 16 | .char => 18 | .int2 => 21 | .int4 => 23 | .date => 1082 | .oid => 26
  | .float4 => 700 | .int8 => 20 | .time => 1083 | .timestamp => 1114 | .timestamptz => 1184
  | .money => 790 | .float8 => 701 | .macaddr => 829 | .macaddr8 => 774 | .uuid => 2950

/-- Size in bytes. -/
def PgType.size : PgType → Nat
  | .bool | .char => 1
  | .int2 => 2
  | .int4 | .date | .oid | .float4 => 4
  | .macaddr => 6
  | .int8 | .time | .timestamp | .timestamptz | .money | .float8 | .macaddr8 => 8
  | .uuid => 16

/-- How the values look. -/
inductive Shape where
  | signed | unsigned | real | string
deriving DecidableEq, Repr

/-- The shape of each type. -/
def PgType.shape : PgType → Shape
  | .bool | .char | .oid => .unsigned
  | .int2 | .int4 | .date | .int8 | .time | .timestamp | .timestamptz | .money => .signed
  | .float4 | .float8 => .real
  | .macaddr | .macaddr8 | .uuid => .string

/-- A value: a number, the bits of a floating point number, or bytes. -/
inductive V where
  | int (v : Int)
  | nat (n : Nat)
  | float (bits : Nat)
  | bytes (b : List Nat)
deriving DecidableEq, Repr

/-- The values of a type. -/
def HasType (t : PgType) : V → Prop
  | .int v => t.shape = .signed ∧ -(2 ^ (8 * t.size - 1) : Int) ≤ v ∧ v < 2 ^ (8 * t.size - 1)
  | .nat n => t.shape = .unsigned ∧ n < 2 ^ (8 * t.size)
  | .float bits => t.shape = .real ∧ bits < 2 ^ (8 * t.size)
  | .bytes b => t.shape = .string ∧ b.length = t.size ∧ ∀ x ∈ b, x < 256

/-- Bits of the mantissa and of the exponent. -/
def PgType.mantissa : PgType → Nat
  | .float4 => 23
  | _ => 52

/-- Bits of the exponent. -/
def PgType.exponent : PgType → Nat
  | .float4 => 8
  | _ => 11

/-- IEEE 754: not a number. -/
def nan (m e bits : Nat) : Prop :=
  bits % 2 ^ (m + e) / 2 ^ m = 2 ^ e - 1 ∧ bits % 2 ^ m ≠ 0

instance (m e bits : Nat) : Decidable (nan m e bits) := by unfold nan; infer_instance

/-- IEEE 754: the absolute value, in units of the least positive number.  Infinity gets
the number after the largest finite one. -/
def magnitude (m e bits : Nat) : Nat :=
  let ex := bits % 2 ^ (m + e) / 2 ^ m
  let ma := bits % 2 ^ m
  if ex = 0 then ma else (2 ^ m + ma) * 2 ^ (ex - 1)

/-- IEEE 754: the value, in units of the least positive number. -/
def real (m e bits : Nat) : Int :=
  if bits / 2 ^ (m + e) % 2 = 1 then -(magnitude m e bits : Int) else magnitude m e bits

/-- Order of floating point numbers in PostgreSQL: NaN is the greatest. -/
def realLt (m e a b : Nat) : Prop :=
  if nan m e a then False else if nan m e b then True else real m e a < real m e b

/-- A string of bytes is smaller than another: at the first difference. -/
def bytesLt : List Nat → List Nat → Prop
  | a :: s, b :: t => a < b ∨ (a = b ∧ bytesLt s t)
  | _, _ => False

/-- The order of a type. -/
def vLt (t : PgType) : V → V → Prop
  | .int a, .int b => a < b
  | .nat a, .nat b => a < b
  | .float a, .float b => realLt t.mantissa t.exponent a b
  | .bytes a, .bytes b => bytesLt a b
  | _, _ => False

/-- Two values are equal in the order of the type. -/
def vEq (t : PgType) (a b : V) : Prop := ¬ vLt t a b ∧ ¬ vLt t b a

/-- The order of composite keys: the first column that differs decides. -/
def rowLt : List PgType → List V → List V → Prop
  | t :: ts, a :: as, b :: bs => vLt t a b ∨ (vEq t a b ∧ rowLt ts as bs)
  | _, _, _ => False

/-- Equal composite keys. -/
def rowEq : List PgType → List V → List V → Prop
  | t :: ts, a :: as, b :: bs => vEq t a b ∧ rowEq ts as bs
  | [], [], [] => True
  | _, _, _ => False

/-- The values of a composite key have their types. -/
def RowTyped : List PgType → List V → Prop
  | t :: ts, a :: as => HasType t a ∧ RowTyped ts as
  | [], [] => True
  | _, _ => False

end Verif.KeyBitmap

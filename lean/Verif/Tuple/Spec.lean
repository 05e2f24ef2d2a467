import Verif.Tuple.Model

/-!
# What tuples are to mean

Column values independent of the way they are stored: a number of some width, a string
of bytes, the contents of a variable-length value, the description of a toasted value.
-/

namespace Verif.Tuple

/-- A column value. -/
inductive Val where
  | null
  | num (n : Nat)
  | bytes (b : List Nat)
  | text (compressed : Bool) (payload : List Nat)
  | toasted (t : Toast)
deriving DecidableEq, Repr

/-- What a pointer to a variable-length value shows: a first byte that is odd and not 1
holds the length of the whole value including that byte, otherwise four bytes hold the
length and whether the contents are compressed. -/
def textAt (m : List Nat) : Option (Bool × List Nat) :=
  match m with
  | [] => none
  | h :: t =>
    if h = 1 then none
    else if h % 2 = 1 then
      if h / 2 ≤ m.length then some (false, t.take (h / 2 - 1)) else none
    else if 4 ≤ m.length ∧ 4 ≤ fromLe (m.take 4) / 4 ∧ fromLe (m.take 4) / 4 ≤ m.length then
      some (h % 4 == 2, (m.drop 4).take (fromLe (m.take 4) / 4 - 4))
    else none

/-- The string up to a zero byte. -/
def stringAt : List Nat → Option (List Nat)
  | [] => none
  | b :: t => if b = 0 then some [] else (stringAt t).map (b :: ·)

/-- The description of a toasted value. -/
def toastAt (m : List Nat) : Option Toast :=
  match m with
  | 1 :: c :: _ :: _ :: r => if 8 ≤ r.length then some ⟨c, fromLe (r.take 4), fromLe ((r.drop 4).take 4)⟩ else none
  | _ => none

/-- What a pointer to a value of a column shows; `none` if it points to no such value. -/
def valAt (a : Attr) (m : List Nat) : Option Val :=
  if a.len > 0 then if a.len.toNat ≤ m.length then some (.bytes (m.take a.len.toNat)) else none
  else if a.len = -1 then
    if m.head? = some 1 then (toastAt m).map .toasted
    else (textAt m).map fun p => .text p.1 p.2
  else (stringAt m).map .bytes

/-- What a value given by the caller means. -/
def datumVal (a : Attr) : Datum → Option Val
  | .num n => if a.byval then some (.num (n % 256 ^ a.len.toNat)) else none
  | .ptr b => if a.byval then none else valAt a b
  | .expanded flat => if a.byval then none else valAt a flat

/-- What a column given by the caller means. -/
def colVal (a : Attr) (c : Col) : Option Val :=
  if c.null then some .null
  else
    match c.toast with
    | some t => some (.toasted t)
    | none => datumVal a c.val

/-- What the result of reading a column means. -/
def readVal (a : Attr) : Option Read → Option Val
  | none => some .null
  | some (.num n) => if a.byval then some (.num n) else none
  | some (.ptr m) => if a.byval then none else valAt a m
  | some (.missing d) => datumVal a d

/-- What a column added after the row was stored means. -/
def missingVal (a : Attr) : Option Val :=
  match a.missing with
  | none => some .null
  | some d => datumVal a d

/-- Column descriptions that occur: numbers of 1, 2, 4 or 8 bytes, fixed lengths,
variable-length values and strings ended by a zero byte (which are never aligned). -/
structure AttrOK (a : Attr) : Prop where
  len : a.len > 0 ∨ a.len = -1 ∨ a.len = -2
  byval : a.byval = true → a.len = 1 ∨ a.len = 2 ∨ a.len = 4 ∨ a.len = 8
  align : a.align = 1 ∨ a.align = 2 ∨ a.align = 4 ∨ a.align = 8
  string : a.len = -2 → a.align = 1

/-- A value that is right for the column: a number for a column passed by value, otherwise
memory that shows a value.  Values stored elsewhere (first byte 1) have been fetched or
toasted before.  An expanded object flattens to a value with a four byte header that says
its length. -/
def DatumOK (a : Attr) : Datum → Prop
  | .num _ => a.byval = true
  | .ptr b => a.byval = false ∧ (∀ x ∈ b, x < 256) ∧ (valAt a b).isSome ∧ (a.len < 0 → b.head? ≠ some 1)
  | .expanded flat =>
    a.byval = false ∧ a.len = -1 ∧ (∀ x ∈ flat, x < 256) ∧ (textAt flat).isSome ∧
      flat.headD 0 % 2 = 0 ∧ flat.length = fromLe (flat.take 4) / 4

/-- A column that can be stored: null, toasted (only columns of variable length are), or
a value. -/
def ColOK (a : Attr) (c : Col) : Prop :=
  match c.toast with
  | some t => c.null = false ∧ a.len = -1 ∧ a.byval = false ∧
      t.compression < 256 ∧ t.rawSize < 256 ^ 4 ∧ t.size < 256 ^ 4
  | none => c.null = true ∨ DatumOK a c.val

/-- A column holding an identifier of six bytes. -/
def idCol (b : List Nat) : Col := ⟨false, none, .ptr b⟩

/-- The row a caller passes: identifiers first, then the values.  An index over the
second identifier of rows gets it in place of one of its values. -/
def Input.row (inp : Input) : List Col :=
  (inp.iptr.toList.map idCol) ++
    match inp.bridge with
    | none => inp.vals
    | some b => if b.isPkey then idCol b.iptr :: inp.vals else inp.vals.set (b.attnum - 1) (idCol b.iptr)

/-- How callers pass identifiers (src/tuple/slot.c:1549-1560, 1603-1614 and the callers of
`o_form_tuple`): in the primary index the second identifier is the column after the first
one; elsewhere there is no first one. -/
structure Input.OK (inp : Input) : Prop where
  pkey : ∀ b, inp.bridge = some b → b.isPkey = true → b.attnum = inp.iptr.toList.length + 1
  other : ∀ b, inp.bridge = some b → b.isPkey = false →
    inp.iptr = none ∧ 0 < b.attnum ∧ b.attnum ≤ inp.vals.length

/-- A row for the columns `desc`. -/
def RowOK (desc : List Attr) (row : List Col) : Prop :=
  row.length = desc.length ∧ ∀ (i : Nat) a c, desc[i]? = some a → row[i]? = some c → ColOK a c

/-- A stored tuple together with the number of columns the table had and the row. -/
structure Stored where
  natts : Nat
  inp : Input
deriving DecidableEq, Repr

/-- What may be stored in a table that now has the columns `desc` and was created with
`init` of them: the row was formed when the table had `natts` columns. -/
structure Stored.OK (desc : List Attr) (init : Nat) (s : Stored) : Prop where
  le : s.natts ≤ desc.length
  initLe : init ≤ s.natts
  ids : s.inp.ctidOff ≤ (fixedSpec desc init).natts
  inp : s.inp.OK
  row : RowOK (desc.take s.natts) s.inp.row

/-- The columns a stored row is to have now. -/
def Stored.vals (desc : List Attr) (s : Stored) : List (Option Val) :=
  List.zipWith colVal (desc.take s.natts) s.inp.row ++ (desc.drop s.natts).map missingVal

/-- A request on a tuple: read its first `n` columns, or fetch the column with index
`i`. -/
inductive Req where
  | read (s : Stored) (n : Nat)
  | get (s : Stored) (i : Nat)
deriving DecidableEq, Repr

/-- The row a request is about. -/
def Req.stored : Req → Stored
  | .read s _ => s
  | .get s _ => s

/-- Serving requests one after the other: each row is formed, then looked at with the
offsets cached so far. -/
def serve (desc : List Attr) (spec : Spec) : List Req → Caches → R (List (List (Option Read)))
  | [], _ => .ok []
  | r :: rest, c =>
    (form (desc.take r.stored.natts) spec r.stored.inp).bind fun t =>
      (match r with
        | .read _ n => readTuple desc spec t n c
        | .get _ i => (fastGet desc spec t i c).bind fun (v, c) => .ok ([v], c)).bind fun (v, c) =>
          (serve desc spec rest c).bind fun vs => .ok (v :: vs)

/-- The values a request is to give. -/
def Req.want (desc : List Attr) : Req → List (Option Val)
  | .read s n => (s.vals desc).take n
  | .get s i => ((s.vals desc).drop i).take 1

/-- The columns a request is about. -/
def Req.attrs (desc : List Attr) : Req → List Attr
  | .read _ n => desc.take n
  | .get _ i => (desc.drop i).take 1

end Verif.Tuple

/-
What a table with large values is meant to do, said without TOAST: a list of rows, each with
its key and its values; nothing is compressed or moved.
-/
import Verif.Toast.Model

namespace Verif.Toast.Spec

/-- The rows: key and values. -/
abbrev Tbl := List (Nat × List (Option Bytes))

/-- The row with a key that is equal for the comparison `cls`. -/
def lookup (cls : Nat → Nat) (k : Nat) (tbl : Tbl) : Option (Nat × List (Option Bytes)) :=
  tbl.find? fun r => cls r.1 == cls k

/-- The value a statement gives for a column. -/
def value (cls : Nat → Nat) (unpack : Bytes → Bytes) (tbl : Tbl) : Src → Option Bytes
  | .null => none
  | .value f => some (if f.comp then unpack f.bytes else f.bytes)
  | .heap f => some (if f.comp then unpack f.bytes else f.bytes)
  | .copy k a =>
    match lookup cls k tbl with
    | none => none
    | some r => r.2.getD a none

/-- The table after a statement; `n` is the number of columns.  It is rejected only if it gives
a wrong number of columns, or if another row has the key. -/
def apply (n : Nat) (cls : Nat → Nat) (unpack : Bytes → Bytes) (tbl : Tbl) : Op → Tbl
  | .insert k srcs =>
    if srcs.length ≠ n ∨ (lookup cls k tbl).isSome then tbl
    else (k, srcs.map (value cls unpack tbl)) :: tbl
  | .update k k' srcs =>
    let rest := tbl.filter fun r => !(cls r.1 == cls k)
    if (lookup cls k tbl).isNone ∨ srcs.length ≠ n ∨ (lookup cls k' rest).isSome then tbl
    else (k', srcs.map (value cls unpack tbl)) :: rest
  | .delete k => tbl.filter fun r => !(cls r.1 == cls k)

/-- The table after any statements on an empty table. -/
def run (n : Nat) (cls : Nat → Nat) (unpack : Bytes → Bytes) (ops : List Op) : Tbl :=
  ops.foldl (apply n cls unpack) []

end Verif.Toast.Spec

namespace Verif.Toast

/-- What is assumed of the table: decompression undoes compression, chunks and pointers are not
empty, and a row fits if all its toastable columns are moved out of line, with 12 bytes counted
for each of them, also for those that are null. -/
structure Good (cfg : Cfg) : Prop where
  unpack : ∀ b p, cfg.pack b = some p → cfg.unpack p = b
  chunk : ∀ k, 0 < cfg.chunk k
  ptr : 0 < cfg.ptr
  narrow : cfg.base + 12 * cfg.modes.length ≤ cfg.maxTuple

/-- No column that was out of line gets an equal value out of line whose stored form has another
size. -/
def calmCols (cfg : Cfg) (snap : Tree) (key : Nat) : Nat → List Cell → List Col → Bool
  | i, o :: os, c :: cs =>
    (match o with
      | .toasted r s =>
        c.flag != .on || srcSize c.d == s ||
          (match srcValue cfg snap c.d, srcValue cfg snap (.ext ⟨key, i, r, s⟩) with
            | some f, some g => raw cfg f != raw cfg g
            | _, _ => true)
      | _ => true) && calmCols cfg snap key (i + 1) os cs
  | _, _, _ => true

/-- A statement of which C75 is proved: if it is an UPDATE, it does not give a value out of line
an equal one of another stored size, and does not change the key to one that compares equal. -/
def calm (cfg : Cfg) (db : Db) : Op → Bool
  | .update k k' srcs =>
    match findRow cfg k db.rows with
    | none => true
    | some old =>
      if old.key = k' then
        match slotOf cfg db.rows srcs with
        | none => true
        | some cs => calmCols cfg db.tree old.key 0 old.cells (toastCols cfg cs)
      else cfg.cls old.key != cfg.cls k'
  | _ => true

/-- All statements are calm, each in the state it meets. -/
def calmRun (cfg : Cfg) : Db → List Op → Bool
  | _, [] => true
  | db, op :: ops =>
    calm cfg db op &&
      match step cfg db op with
      | none => true
      | some db' => calmRun cfg db' ops

end Verif.Toast

import Verif.S3Headers.Model

/-!
# What the cache of the headers must do

A header is an array of words.  The functions of src/s3/headers.c read a word, or change it if it has an expected value.
What they did, in the order in which it took effect, must be what a plain array would have given.  Nothing here mentions
buffers.
-/

namespace Verif.S3Headers

open Verif.S3Parts (Part Status)

/-- The words of all headers after one event. -/
def apply (fresh : Nat → Nat → Part) (s : Nat → Nat → Part) : Ev → Nat → Nat → Part
  | .done t i _ new => fun t' i' => if t' = t ∧ i' = i then new else s t' i'
  | .unlink t _ => fun t' i' => if t' = t then fresh t' i' else s t' i'
  | _ => s

/-- The words of all headers after the events, the last first; `s0`: those in the files at the start. -/
def after (fresh s0 : Nat → Nat → Part) : List Ev → Nat → Nat → Part
  | [] => s0
  | e :: es => apply fresh (after fresh s0 es) e

/-- Is the event right, `s` being the words before it?  A file is unlinked only if no part is locked, being loaded or
evicted, or loaded within the file. -/
def right (m : Nat) (s : Nat → Nat → Part) : Ev → Prop
  | .read t i x => x = s t i
  | .done t i old _ => s t i = old
  | .no t i x => x = s t i
  | .lost _ _ _ => True
  | .unlink t size => ∀ j, j < m → (s t j).locks = 0 ∧ ((s t j).st = .notLoaded ∨ ((s t j).st = .loaded ∧ size ≤ j))

/-- All events are right. -/
def legal (m : Nat) (fresh s0 : Nat → Nat → Part) : List Ev → Prop
  | [] => True
  | e :: es => legal m fresh s0 es ∧ right m (after fresh s0 es) e

end Verif.S3Headers

import Verif.OBuffers.Model

/-!
# What a file is

A file is an array of bytes.  `value` is the byte most recently written at an address,
according to the events (newest first); `first` are the bytes at the start.
-/

namespace Verif.OBuffers

/-- The byte most recently written. -/
def value (first : Nat → Nat → Nat) : List Ev → Nat → Nat → Nat
  | [], tag, a => first tag a
  | .wr t ad bs :: tr, tag, a =>
    if t = tag ∧ ad ≤ a ∧ a < ad + bs.length then bs.getD (a - ad) 0
    else value first tr tag a
  | _ :: tr, tag, a => value first tr tag a

/-- Some moment since the call: `mid` is the history at a time when process `p` had already
called `op` and not returned (`tr` is the history now). -/
def During (p : Nat) (op : Op) (tr mid : List Ev) : Prop :=
  ∃ later earlier sofar, tr = later ++ mid ∧ mid = sofar ++ .call p op :: earlier ∧
    (∀ o', Ev.call p o' ∉ later ++ sofar) ∧ ∀ o' ok acc, Ev.ret p o' ok acc ∉ later ++ sofar

/-- A read that returns gives, for each address of the range, the byte that was the most
recently written one at a moment between call and return. -/
def ReadsBack (first : Nat → Nat → Nat) (tr : List Ev) : Prop :=
  ∀ later p op acc earlier, tr = later ++ .ret p op true acc :: earlier → op.write = false →
    ∀ i, i < op.size → ∃ mid, During p op earlier mid ∧ acc i = value first mid op.tag (op.off + i)

/-- A write that returns has written each of its bytes at some moment between call and
return. -/
def Written (tr : List Ev) : Prop :=
  ∀ later p op acc earlier, tr = later ++ .ret p op true acc :: earlier → op.write = true →
    ∀ i, i < op.size → ∃ mid ad bs, During p op earlier (.wr op.tag ad bs :: mid) ∧
      ad ≤ op.off + i ∧ op.off + i < ad + bs.length ∧ bs.getD (op.off + i - ad) 0 = op.buf i

/-- Nothing is written that no call asked for: each byte written belongs to a write call in
progress. -/
def NothingElse (tr : List Ev) : Prop :=
  ∀ later tag ad bs earlier, tr = later ++ .wr tag ad bs :: earlier →
    ∃ p op, op.write = true ∧ op.tag = tag ∧ During p op earlier earlier ∧
      ∀ i, i < bs.length → op.off ≤ ad + i ∧ ad + i < op.off + op.size ∧
        bs.getD i 0 = op.buf (ad + i - op.off)

/-- C28: reads return the bytes most recently written, whatever was evicted in between. -/
def C28 (first : Nat → Nat → Nat) (tr : List Ev) : Prop :=
  ReadsBack first tr ∧ Written tr ∧ NothingElse tr

end Verif.OBuffers

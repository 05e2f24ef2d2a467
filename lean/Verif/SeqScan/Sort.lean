/-!
# Sorting

Any sorting will do for `qsort`, which sorts the downlinks to the disk (src/btree/scan.c:821-825, 861-865).
-/

namespace Verif.SeqScan

/-- Insert an element where it belongs. -/
def insert {α : Type} (le : α → α → Bool) (a : α) : List α → List α
  | [] => [a]
  | b :: l => if le a b then a :: b :: l else b :: insert le a l

/-- `qsort`: src/btree/scan.c:821-825, 861-865. -/
def sort {α : Type} (le : α → α → Bool) : List α → List α
  | [] => []
  | a :: l => insert le a (sort le l)

theorem insert_perm {α : Type} (le : α → α → Bool) (a : α) : ∀ l, (insert le a l).Perm (a :: l) := by
  intro l
  induction l with
  | nil => exact List.Perm.refl _
  | cons b l ih =>
    unfold insert
    split
    · exact List.Perm.refl _
    · exact (ih.cons b).trans (List.Perm.swap a b l)

theorem sort_perm {α : Type} (le : α → α → Bool) : ∀ l, (sort le l).Perm l := by
  intro l
  induction l with
  | nil => exact List.Perm.refl _
  | cons a l ih => exact (insert_perm le a _).trans (ih.cons a)

end Verif.SeqScan

import Verif.UndoLog.Inv

/-!
# The order of the locations holds in all runs
-/

namespace Verif.UndoLog

variable {c : Cfg} {s s' : St}

theorem minOpt_le {x : Nat} {o : Option Nat} : minOpt x o ≤ x := by
  unfold minOpt; split <;> omega

theorem minOpt_le_some {x y : Nat} {o : Option Nat} (h : o = some y) : minOpt x o ≤ y := by
  subst h; simp only [minOpt]; omega

theorem minOpt_mono {x y : Nat} {o : Option Nat} (h : x ≤ y) : minOpt x o ≤ minOpt y o := by
  unfold minOpt; split <;> omega

/-- The shared variables other than `used`. -/
def St.core (s : St) : Nat × Nat × Nat × Nat × Nat × Nat × Option Um × Option Ev :=
  (s.written, s.wip, s.minRes, s.minRet, s.minTr, s.cleaned, s.um, s.ev)

theorem core_eqs (e : s'.core = s.core) : s'.written = s.written ∧ s'.wip = s.wip ∧
    s'.minRes = s.minRes ∧ s'.minRet = s.minRet ∧ s'.minTr = s.minTr ∧
    s'.cleaned = s.cleaned ∧ s'.um = s.um ∧ s'.ev = s.ev := by
  simpa only [St.core, Prod.mk.injEq] using e

theorem marks_mono (h : Marks c s) (hu : s.used ≤ s'.used) (e : s'.core = s.core) :
    Marks c s' := by
  obtain ⟨e1, e2, e3, e4, e5, e6, e7, e8⟩ := core_eqs e
  exact
    { wWip := by rw [e1, e2]; exact h.wWip
      wipUsed := by rw [e2]; exact Nat.le_trans h.wipUsed hu
      resUsed := by rw [e3]; exact Nat.le_trans h.resUsed hu
      trUsed := by rw [e5]; exact Nat.le_trans h.trUsed hu
      retTr := by rw [e4, e5, e7]; exact h.retTr
      cleaned := by rw [e4, e6]; exact h.cleaned
      free := by
        have : lockFree s' = lockFree s := by simp only [lockFree, e7, e8]
        rw [this, e1, e2]; exact h.free
      umX := by rw [e7]; exact fun u x h1 h2 => Nat.le_trans (h.umX u x h1 h2) hu
      umB := by rw [e7]; exact fun u x h1 h2 => Nat.le_trans (h.umB u x h1 h2) hu
      umA := by rw [e7]; exact h.umA
      umPub3 := by rw [e7, e4, e5]; exact h.umPub3
      umRaise := by rw [e7, e8, e2, e4]; exact h.umRaise
      umTail := by rw [e7]; exact h.umTail
      umHeld := by rw [e7]; exact h.umHeld
      umEv := by rw [e7, e8]; exact h.umEv
      evTarget := by rw [e8]; exact h.evTarget
      evM := by rw [e8]; exact fun e h1 => Nat.le_trans (h.evM e h1) hu
      evTgt := by rw [e8, e2]; exact h.evTgt
      evPos := by rw [e8, e1]; exact h.evPos
      evNoTgt := by rw [e8, e1, e2]; exact h.evNoTgt
      evUm := by rw [e8, e7]; exact h.evUm
      evEarly := by rw [e8, e7, e2, e4]; exact h.evEarly }

set_option maxHeartbeats 4000000 in
theorem marks_umGo (h : Marks c s) : Marks c (umGo c s) := by
  unfold umGo
  split
  · exact h
  · rename_i u hu
    split <;> (try split) <;> first
      | exact h
      | (constructor <;> first
          | exact h.wWip | exact h.wipUsed | exact h.resUsed | exact h.trUsed | exact h.retTr
          | exact h.cleaned | exact h.evTarget | exact h.evM | exact h.evTgt | exact h.evPos
          | exact h.evNoTgt
          | skip)
    all_goals (cases h; first
      | (simp only [lockFree] at *
         grind [UmPc.cx, UmPc.cb, UmPc.ca, EvPc.tgt, EvPc.pos, minOpt_le, minOpt_mono]))

set_option maxHeartbeats 4000000 in
theorem marks_evGo (h : Marks c s) : Marks c (evGo c s) := by
  unfold evGo
  split
  · exact h
  · rename_i e he
    split
    · split
      · constructor <;> first
          | exact h.wWip | exact h.wipUsed | exact h.resUsed | exact h.trUsed
          | exact h.cleaned
          | (cases h
             simp only [lockFree] at *
             grind [UmPc.cx, UmPc.cb, UmPc.ca, EvPc.tgt, EvPc.pos])
      · exact h
    · split
      · split
        · exact h
        · split
          · split
            all_goals (
              constructor <;> first
              | exact h.wWip | exact h.wipUsed | exact h.resUsed | exact h.trUsed
              | exact h.cleaned
              | (cases h
                 simp only [lockFree, evDone] at *
                 grind [UmPc.cx, UmPc.cb, UmPc.ca, EvPc.tgt, EvPc.pos]))
          · constructor <;> first
              | exact h.wWip | exact h.wipUsed | exact h.resUsed | exact h.trUsed
              | exact h.cleaned
              | (cases h
                 simp only [lockFree] at *
                 grind [UmPc.cx, UmPc.cb, UmPc.ca, EvPc.tgt, EvPc.pos])
      · exact h
    · constructor <;> first
        | exact h.wWip | exact h.wipUsed | exact h.resUsed | exact h.trUsed
        | exact h.cleaned
        | (cases h
           simp only [lockFree, evDone] at *
           grind [UmPc.cx, UmPc.cb, UmPc.ca, EvPc.tgt, EvPc.pos])
    all_goals (try split) <;> (try split) <;> first
      | exact h
      | (constructor <;> first
          | exact h.wWip | exact h.wipUsed | exact h.resUsed | exact h.trUsed | exact h.retTr
          | exact h.cleaned
          | (cases h
             simp only [lockFree, evDone] at *
             grind [UmPc.cx, UmPc.cb, UmPc.ca, EvPc.tgt, EvPc.pos]))

theorem marks_evictStart {p t m : Nat} {pc : Pc} (h : Marks c s) (hf : lockFree s = true)
    (ht : t ≤ m) (hm : m ≤ s.used) : Marks c (evictStart s p t m pc) := by
  unfold evictStart
  constructor <;> first
    | exact h.wWip | exact h.wipUsed | exact h.resUsed | exact h.trUsed | exact h.retTr
    | exact h.cleaned | exact h.umX | exact h.umB | exact h.umA | exact h.umPub3
    | exact h.umTail | exact h.umHeld
    | (cases h
       simp only [lockFree] at *
       grind [UmPc.cx, UmPc.cb, UmPc.ca, EvPc.tgt, EvPc.pos])

theorem marks_umStart {cl : Bool} (h : Marks c s) : Marks c (umStart s cl) := by
  unfold umStart
  split
  · constructor <;> first
      | exact h.wWip | exact h.wipUsed | exact h.resUsed | exact h.trUsed
      | exact h.cleaned
      | (cases h
         simp only [lockFree] at *
         grind [UmPc.cx, UmPc.cb, UmPc.ca, EvPc.tgt, EvPc.pos])
  · exact h

end Verif.UndoLog

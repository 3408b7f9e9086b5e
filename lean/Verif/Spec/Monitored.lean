import Verif.Model.Monitored

/-!
# What C119 speaks of

Small definitions about programs, independent of the monitored version of execution, and the meaning of the last event of a loop.
-/

namespace Scallop.Exec

variable {F T I O : Type}

/-- No relation of the program is declared with a scheduler of its own. -/
def NoSchedulers (P : Program F) : Prop := ∀ r ∈ P.relations, (P.decl r).sched = none

/-- Every stratum has a relation that is visible or read by a stratum. -/
def AllUsed (P : Program F) : Prop := ∀ st ∈ P.strata, ∃ r ∈ st.relations, (P.decl r).hidden = false ∨ ∃ st' ∈ P.strata, r ∈ stratumDeps st'

/-- Two programs that differ in schedulers only. -/
def SameButSchedulers (P Q : Program F) : Prop :=
  P.strata = Q.strata ∧ ∀ r, (P.decl r).hidden = (Q.decl r).hidden ∧ (P.decl r).immutable = (Q.decl r).immutable ∧ (P.decl r).goal = (Q.decl r).goal ∧
    (P.decl r).indexed = (Q.decl r).indexed

/-- The program without its schedulers. -/
def Program.plain (P : Program F) : Program F := ⟨P.strata, fun r => ⟨(P.decl r).hidden, (P.decl r).immutable, (P.decl r).goal, none, (P.decl r).indexed⟩⟩

end Scallop.Exec

namespace Scallop

variable {V T W ι κ : Type*} [LinearOrder V] [LinearOrder W] [Fintype ι]

/-- Why a loop has stopped. -/
def Reason (c : Prov T W) (p : Stratum V T ι κ) (s' : IterState V T ι) : LoopEvent → Prop
  | .iteration _ => False
  | .limit => ∃ n, p.iterLimit = some n ∧ n < s'.num
  | .goal => p.stopAtGoal = true ∧ p.goals ≠ []
  | .converging => 0 < s'.num ∧ ∃ rel, changedAll c p.sched rel = some (s'.rel, false)

end Scallop

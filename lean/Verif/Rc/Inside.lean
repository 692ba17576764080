import Verif.Rc.Unwind
/-!
# What happens before a call returns

The specification for C80. Unlike `Within`, it has what the destructors of items do.
-/

namespace Verif.Rc
variable {α : Type}

/-- A call that was made while the drops `ts` were pending, and that has the drops `u` left to do, gets to state `st'`, with `u'` left to do.
In between, destructors of items may make calls. It returns when nothing is left to do. The order of drops is that of rc_slice.rs:195-219 and the drop glue
of the structures. -/
inductive Inside (umax : Nat) (ts : List Task) (st : State α) (u : List Task) : State α → List Task → Prop
  | now : Inside umax ts st u st u
  | next {st1 st2 : State α} {t : Task} {u1 u2 : List Task} (i : Inside umax ts st u st1 (t :: u1))
      (s : Config.Step umax ⟨st1, t :: u1 ++ ts⟩ (.ok ⟨st2, u2 ++ ts⟩)) : Inside umax ts st u st2 u2

/-- What may happen later, where destructors may also panic. See `Config.PStep`. -/
inductive Later (umax : Nat) (c : Config α) : Config α → Prop
  | now : Later umax c c
  | next {c1 c2 : Config α} (l : Later umax c c1) (s : Config.PStep umax c1 (.ok c2)) : Later umax c c2

/-- What may happen later, if no destructor panics. See `Config.Step`. -/
inductive NoPanic (umax : Nat) (c : Config α) : Config α → Prop
  | now : NoPanic umax c c
  | next {c1 c2 : Config α} (l : NoPanic umax c c1) (s : Config.Step umax c1 (.ok c2)) : NoPanic umax c c2

end Verif.Rc

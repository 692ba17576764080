import Verif.Rc.Unwind
/-!
# What a call does before it returns

The specification for C73.
-/

namespace Verif.Rc
variable {α : Type}

/-- From heap `h`, with the drops `ts` to be done before it returns, a call gets to heap `h'`, with `ts'` left to do. What the destructors of items do is left out. The order of
drops is that of rc_slice.rs:195-219 and the drop glue of the structures. -/
inductive Within : Heap α → List Task → Heap α → List Task → Prop
  | now (h : Heap α) (ts : List Task) : Within h ts h ts
  | next {h h1 h' : Heap α} {t : Task} {new ts ts' : List Task} (e : taskStep h t = .ok (h1, new)) (w : Within h1 (new ++ ts) h' ts') : Within h (t :: ts) h' ts'

end Verif.Rc

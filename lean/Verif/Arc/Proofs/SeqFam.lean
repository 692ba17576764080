import Verif.Arc.Proofs.SeqSim
/-!
# The numbers of families do not matter

In the specification of `RcSlice`, `WeakSlice::new` uses up the number of a family (the model
of `RcSlice` makes a guard for it); the threaded model makes nothing. A history has the same
outcome either way.
-/

namespace Verif.Arc
open Verif.Spec
open Verif.Rc (upd upd_same upd_ne)
variable {α : Type} {umax : Nat}

/-- The same handle, with another number for its family. -/
def ren (φ : Nat → Nat) : Hand → Hand
  | .shared f p => .shared (φ f) p
  | .weak f p => .weak (φ f) p
  | .weakNone => .weakNone
  | .uniq b r h => .uniq b r h
  | .iter b r h => .iter b r h
  | .parts b l h => .parts b l h

/-- The family of the handle has a number below `n`. -/
def below (n : Nat) : Hand → Prop
  | .shared f _ | .weak f _ => f < n
  | _ => True

theorem below.mono {n n' : Nat} (h : n ≤ n') : ∀ {y : Hand}, below n y → below n' y
  | .shared .., h1 => Nat.lt_of_lt_of_le h1 h
  | .weak .., h1 => Nat.lt_of_lt_of_le h1 h
  | .weakNone, _ => trivial
  | .uniq .., _ => trivial
  | .iter .., _ => trivial
  | .parts .., _ => trivial

/-- `v` is `w` with other numbers. -/
structure Same (φ : Nat → Nat) (w v : World α) : Prop where
  zst : v.zst = w.zst
  nbuf : v.nbuf = w.nbuf
  items : v.items = w.items
  mem : v.mem = w.mem
  hs : v.hs = w.hs.map (Option.map (ren φ))
  fam : ∀ f, f < w.fams.length → φ f < v.fams.length ∧ v.fam (φ f) = w.fam f
  inj : ∀ f f', f < w.fams.length → f' < w.fams.length → φ f = φ f' → f = f'
  ok : ∀ (k : Nat) y, w.hs[k]?.join = some y → below w.fams.length y

namespace Same
variable {φ : Nat → Nat} {w v : World α} {k f : Nat} {p : List Side} {y : Hand}

theorem get (S : Same φ w v) (k : Nat) : v.get k = (w.get k).map (ren φ) := by
  simp only [World.get, S.hs, List.getElem?_map]
  cases w.hs[k]? with
  | none => rfl
  | some o => cases o <;> rfl

theorem ok' (S : Same φ w v) (h : w.get k = some y) : below w.fams.length y := S.ok k y h

theorem rangeOf (S : Same φ w v) (h : f < w.fams.length) : v.rangeOf (φ f) p = w.rangeOf f p := by
  simp only [World.rangeOf, (S.fam f h).2]

theorem holdsOf (S : Same φ w v) (h : f < w.fams.length) : v.holdsOf (φ f) p = w.holdsOf f p := by
  simp only [World.holdsOf, S.rangeOf h, (S.fam f h).2]

theorem halfPath (S : Same φ w v) (h : f < w.fams.length) (s : Side) : v.halfPath (φ f) p s = w.halfPath f p s := by
  cases s <;> simp only [World.halfPath, S.rangeOf h]

theorem look (S : Same φ w v) (b : Nat) (r : Rng) : v.look b r = w.look b r := by
  simp only [World.look, S.items]

theorem any (S : Same φ w v) {t t' : Hand → Bool} (h : ∀ y, below w.fams.length y → t' (ren φ y) = t y) : v.anyHand t' = w.anyHand t := by
  simp only [World.anyHand, S.hs, List.any_map]
  rw [Bool.eq_iff_iff]
  simp only [List.any_eq_true, Function.comp]
  have key : ∀ o ∈ w.hs, (Option.map (ren φ) o).any t' = o.any t := by
    intro o ho
    cases o with
    | none => rfl
    | some y =>
      obtain ⟨k, hk⟩ := List.mem_iff_getElem?.1 ho
      exact h y (S.ok k y (by rw [hk]; rfl))
  exact ⟨fun ⟨o, h1, h2⟩ => ⟨o, h1, (key o h1) ▸ h2⟩, fun ⟨o, h1, h2⟩ => ⟨o, h1, (key o h1).symm ▸ h2⟩⟩

theorem push (S : Same φ w v) (h : below w.fams.length y) : Same φ (w.push y) (v.push (ren φ y)) where
  zst := S.zst
  nbuf := S.nbuf
  items := S.items
  mem := S.mem
  hs := by simp [World.push, S.hs]
  fam := S.fam
  inj := S.inj
  ok k y' hk := by
    simp only [World.push, List.getElem?_append] at hk
    split at hk
    · exact S.ok k y' hk
    · cases e : k - w.hs.length with
      | zero => rw [e] at hk; cases hk; exact h
      | succ n => rw [e] at hk; cases hk

theorem set (S : Same φ w v) (k : Nat) {o : Option Hand} (h : ∀ y, o = some y → below w.fams.length y) :
    Same φ { w with hs := w.hs.set k o } { v with hs := v.hs.set k (o.map (ren φ)) } where
  zst := S.zst
  nbuf := S.nbuf
  items := S.items
  mem := S.mem
  hs := by simp [S.hs]
  fam := S.fam
  inj := S.inj
  ok j y' hk := by
    simp only [List.getElem?_set] at hk
    split at hk
    · split at hk
      · cases o with
        | none => cases hk
        | some y => cases hk; exact h _ rfl
      · cases hk
    · exact S.ok j y' hk

theorem put (S : Same φ w v) (h : below w.fams.length y) : Same φ (w.put k y) (v.put k (ren φ y)) :=
  S.set k (o := some y) fun y' e => by cases e; exact h

theorem del (S : Same φ w v) : Same φ (w.del k) (v.del k) := S.set k (o := none) fun y' e => by cases e

theorem other (S : Same φ w v) {t t' : Hand → Bool} (h : ∀ y, below w.fams.length y → t' (ren φ y) = t y) :
    v.otherHand k t' = w.otherHand k t := (S.del (k := k)).any h

theorem store (S : Same φ w v) (b i : Nat) (x : Slot α) : Same φ (w.store b i x) (v.store b i x) where
  zst := S.zst
  nbuf := S.nbuf
  items := by simp only [World.store, S.items]
  mem := S.mem
  hs := S.hs
  fam := S.fam
  inj := S.inj
  ok := S.ok

theorem newBuf (S : Same φ w v) (xs : List α) : Same φ (w.newBuf xs) (v.newBuf xs) where
  zst := S.zst
  nbuf := by simp only [World.newBuf, S.nbuf]
  items := by simp only [World.newBuf, S.items, S.nbuf]
  mem := by simp only [World.newBuf, S.mem, S.nbuf, S.zst]
  hs := S.hs
  fam := S.fam
  inj := S.inj
  ok := S.ok

/-- Only the number is used up. -/
theorem skip (S : Same φ w v) (F : Family) : Same φ w (v.newFam F) where
  zst := S.zst
  nbuf := S.nbuf
  items := S.items
  mem := S.mem
  hs := S.hs
  fam f h := by
    obtain ⟨h1, h2⟩ := S.fam f h
    refine ⟨by simp only [World.newFam, List.length_append]; omega, ?_⟩
    rw [← h2]
    simp only [World.fam, World.newFam, List.getD, List.getElem?_append_left h1]
  inj := S.inj
  ok := S.ok

theorem ren_upd {n : Nat} (h : below n y) (x : Nat) : ren (upd φ n x) y = ren φ y := by
  cases y <;> simp only [ren]
  all_goals
    simp only [below] at h
    rw [upd_ne _ _ (by omega)]

theorem newFam (S : Same φ w v) (F : Family) : Same (upd φ w.fams.length v.fams.length) (w.newFam F) (v.newFam F) where
  zst := S.zst
  nbuf := S.nbuf
  items := S.items
  mem := S.mem
  hs := by
    show v.hs = _
    rw [S.hs]
    apply List.map_congr_left
    intro o ho
    cases o with
    | none => rfl
    | some y =>
      obtain ⟨k, hk⟩ := List.mem_iff_getElem?.1 ho
      simp only [Option.map_some]
      rw [ren_upd (S.ok k y (by rw [hk]; rfl))]
  fam f h := by
    simp only [World.newFam, List.length_append, List.length_cons, List.length_nil, Nat.zero_add] at h ⊢
    by_cases e : f = w.fams.length
    · subst e; rw [upd_same]
      refine ⟨by omega, ?_⟩
      simp [World.fam, List.getD]
    · rw [upd_ne _ _ e]
      have h' : f < w.fams.length := by omega
      obtain ⟨h1, h2⟩ := S.fam f h'
      refine ⟨by omega, ?_⟩
      simp only [World.fam, List.getD, List.getElem?_append_left h1, List.getElem?_append_left h'] at h2 ⊢
      exact h2
  inj f f' h h' e := by
    simp only [World.newFam, List.length_append, List.length_cons, List.length_nil, Nat.zero_add] at h h'
    by_cases e1 : f = w.fams.length <;> by_cases e2 : f' = w.fams.length
    · rw [e1, e2]
    · rw [e1, upd_same, upd_ne _ _ e2] at e
      have := (S.fam f' (by omega)).1; omega
    · rw [e2, upd_same, upd_ne _ _ e1] at e
      have := (S.fam f (by omega)).1; omega
    · rw [upd_ne _ _ e2, upd_ne _ _ e1] at e
      exact S.inj f f' (by omega) (by omega) e
  ok k y h := (S.ok k y h).mono (by simp [World.newFam])

theorem settle (S : Same φ w v) : Same φ w.settle v.settle where
  zst := S.zst
  nbuf := S.nbuf
  items := by
    funext b i
    have : v.anyHand (v.covers b i) = w.anyHand (w.covers b i) := S.any fun y hy => by
      cases y with
      | shared f p => simp only [ren, World.covers, S.rangeOf hy, (S.fam f hy).2]
      | _ => rfl
    simp only [World.settle, S.items, this]
  mem := by
    funext b
    have : v.anyHand (v.keeps b) = w.anyHand (w.keeps b) := S.any fun y hy => by
      cases y with
      | shared f p => simp only [ren, World.keeps, S.holdsOf hy, (S.fam f hy).2]
      | _ => rfl
    simp only [World.settle, S.mem, this]
  hs := S.hs
  fam := S.fam
  inj := S.inj
  ok := S.ok

theorem beq (S : Same φ w v) {f f' : Nat} (h : f < w.fams.length) (h' : f' < w.fams.length) : (φ f' == φ f) = (f' == f) := by
  rw [Bool.eq_iff_iff]; simp only [beq_iff_eq]
  exact ⟨fun e => S.inj f' f h' h e, fun e => by rw [e]⟩

theorem sharedC (S : Same φ w v) (h : f < w.fams.length) (y : Hand) (hy : below w.fams.length y) :
    World.sharedConflict (φ f) p (ren φ y) = World.sharedConflict f p y := by
  cases y <;> simp only [ren, World.sharedConflict]
  rw [S.beq h hy]

theorem weakC (S : Same φ w v) (h : f < w.fams.length) (y : Hand) (hy : below w.fams.length y) :
    World.weakConflict (φ f) p (ren φ y) = World.weakConflict f p y := by
  cases y <;> simp only [ren, World.weakConflict]
  rw [S.beq h hy]

theorem sharedA (S : Same φ w v) (h : f < w.fams.length) (y : Hand) (hy : below w.fams.length y) :
    World.sharedAbove (φ f) p (ren φ y) = World.sharedAbove f p y := by
  cases y <;> simp only [ren, World.sharedAbove]
  rw [S.beq h hy]

theorem view (S : Same φ w v) (hy : below w.fams.length y) : v.view (ren φ y) = w.view y := by
  cases y with
  | shared f p => simp only [ren, World.view, S.rangeOf hy, (S.fam f hy).2]
  | _ => rfl

/-- One call. -/
theorem act (S : Same φ w v) (op : Spec.Op α) :
    ∃ φ', Same φ' (act0 umax w op).1 (v.act umax op).1 ∧ (v.act umax op).2 = (act0 umax w op).2 := by
  have no : ∀ o, ∃ φ', Same φ' (w, o).1 (v, o).1 ∧ (v, (o : Obs α)).2 = (w, o).2 := fun o => ⟨φ, S, rfl⟩
  cases op with
  | rcNew xs =>
    simp only [act0, World.act]
    split
    · have S1 := (S.newBuf xs).newFam ⟨w.nbuf, ⟨0, xs.length⟩, !xs.isEmpty⟩
      refine ⟨upd φ w.fams.length v.fams.length, ?_, rfl⟩
      have S2 := S1.push (y := .shared w.fams.length []) (by simp [below, World.newFam, World.newBuf])
      simp only [ren] at S2
      rw [show (w.newBuf xs).fams = w.fams from rfl, show (v.newBuf xs).fams = v.fams from rfl, upd_same] at S2
      rw [S.nbuf]; exact S2
    · exact no _
  | mutNew xs =>
    simp only [act0, World.act]
    split
    · refine ⟨φ, ?_, rfl⟩
      rw [S.nbuf, S.zst]; exact (S.newBuf xs).push (y := .uniq ..) trivial
    · exact no _
  | weakNew => exact ⟨φ, (S.skip _).push (y := .weakNone) trivial, rfl⟩
  | clone k =>
    simp only [act0, World.act, S.get]
    cases hk : w.get k with
    | none => exact no _
    | some y =>
      have hy := S.ok' hk
      cases y with
      | shared f p => exact ⟨φ, S.push hy, rfl⟩
      | weak f p => exact ⟨φ, S.push hy, rfl⟩
      | weakNone => exact ⟨φ, S.push hy, rfl⟩
      | uniq b r h =>
        simp only [Option.map_some, ren, S.look]
        refine ⟨φ, ?_, trivial⟩
        rw [S.nbuf, S.zst]; exact (S.newBuf _).push (y := .uniq ..) trivial
      | iter b r h => exact no _
      | parts b l h => exact no _
  | cloneSide s k =>
    simp only [act0, World.act, S.get]
    cases hk : w.get k with
    | none => exact no _
    | some y =>
      have hy := S.ok' hk
      cases y with
      | shared f p =>
        simp only [Option.map_some, ren]
        rw [S.halfPath hy]
        exact ⟨φ, S.push (y := .shared f (w.halfPath f p s)) hy, trivial⟩
      | _ => exact no _
  | splitOff s k =>
    simp only [act0, World.act, S.get]
    cases hk : w.get k with
    | none => exact no _
    | some y =>
      have hy := S.ok' hk
      cases y with
      | shared f p =>
        simp only [Option.map_some, ren]
        rw [S.halfPath hy, S.halfPath hy]
        cases s with
        | L => exact ⟨φ, (S.put (y := .shared f (w.halfPath f p .R)) hy).push (y := .shared f (w.halfPath f p .L)) hy, rfl⟩
        | R => exact ⟨φ, (S.put (y := .shared f (w.halfPath f p .L)) hy).push (y := .shared f (w.halfPath f p .R)) hy, rfl⟩
      | uniq b r h => exact ⟨φ, (S.put (y := .uniq ..) trivial).push (y := .uniq ..) trivial, rfl⟩
      | _ => exact no _
  | getMut k j x =>
    simp only [act0, World.act, S.get]
    cases hk : w.get k with
    | none => exact no _
    | some y =>
      have hy := S.ok' hk
      cases y with
      | shared f p =>
        simp only [Option.map_some, ren]
        rw [S.other (S.sharedC hy), S.other (S.weakC hy), S.rangeOf hy, (S.fam f hy).2]
        split
        · exact no _
        · split
          · exact ⟨φ, S.store _ _ _, rfl⟩
          · exact no _
      | _ => exact no _
  | write k j x =>
    simp only [act0, World.act, S.get]
    cases hk : w.get k with
    | none => exact no _
    | some y =>
      have hy := S.ok' hk
      cases y with
      | shared f p => exact no _
      | weak f p => exact no _
      | weakNone => exact no _
      | _ =>
        simp only [Option.map_some, ren, World.view]
        split
        · exact ⟨φ, S.store _ _ _, rfl⟩
        · exact no _
  | read k =>
    simp only [act0, World.act, S.get]
    cases hk : w.get k with
    | none => exact no _
    | some y =>
      have hy := S.ok' hk
      simp only [Option.map_some, S.view hy]
      cases w.view y with
      | none => exact no _
      | some q =>
        simp only [S.look]
        exact ⟨φ, S, trivial⟩
  | intoMut k =>
    simp only [act0, World.act, S.get]
    cases hk : w.get k with
    | none => exact no _
    | some y =>
      have hy := S.ok' hk
      cases y with
      | shared f p =>
        simp only [Option.map_some, ren]
        rw [S.other (S.sharedC hy), S.rangeOf hy, S.holdsOf hy, (S.fam f hy).2]
        split
        · exact no _
        · exact ⟨φ, S.put (y := .uniq ..) trivial, rfl⟩
      | _ => exact no _
  | intoImmut k =>
    simp only [act0, World.act, S.get]
    cases hk : w.get k with
    | none => exact no _
    | some y =>
      have hy := S.ok' hk
      cases y with
      | uniq b r h =>
        have S1 := S.newFam ⟨b, r, h⟩
        refine ⟨upd φ w.fams.length v.fams.length, ?_, rfl⟩
        have S2 := S1.put (k := k) (y := .shared w.fams.length []) (by simp [below, World.newFam])
        simp only [ren, upd_same] at S2
        exact S2
      | _ => exact no _
  | downgrade k =>
    simp only [act0, World.act, S.get]
    cases hk : w.get k with
    | none => exact no _
    | some y =>
      have hy := S.ok' hk
      cases y with
      | shared f p => exact ⟨φ, S.push (y := .weak f p) hy, rfl⟩
      | _ => exact no _
  | upgrade k =>
    simp only [act0, World.act, S.get]
    cases hk : w.get k with
    | none => exact no _
    | some y =>
      have hy := S.ok' hk
      cases y with
      | weak f p =>
        simp only [Option.map_some, ren]
        rw [S.any (S.sharedA hy)]
        split
        · exact ⟨φ, S.push (y := .shared f p) hy, rfl⟩
        · exact no _
      | _ => exact no _
  | drop k =>
    simp only [act0, World.act, S.get]
    cases hk : w.get k with
    | none => exact no _
    | some y => exact ⟨φ, S.del, rfl⟩
  | intoIter k =>
    simp only [act0, World.act, S.get]
    cases hk : w.get k with
    | none => exact no _
    | some y =>
      cases y with
      | uniq b r h => exact ⟨φ, S.put (y := .iter ..) trivial, rfl⟩
      | _ => exact no _
  | next e k =>
    simp only [act0, World.act, S.get]
    cases hk : w.get k with
    | none => exact no _
    | some y =>
      cases y with
      | iter b r h =>
        simp only [Option.map_some, ren, S.items]
        split
        · exact ⟨φ, S.put (y := .iter ..) trivial, rfl⟩
        · split
          · exact ⟨φ, (S.store _ _ _).put (y := .iter ..) trivial, rfl⟩
          · exact no _
      | _ => exact no _
  | splitOffFrom k n =>
    simp only [act0, World.act, S.get]
    cases hk : w.get k with
    | none => exact no _
    | some y =>
      cases y with
      | iter b r h =>
        simp only [Option.map_some, ren]
        split
        · exact ⟨φ, (S.put (y := .iter ..) trivial).push (y := .iter ..) trivial, rfl⟩
        · exact no _
      | _ => exact no _
  | splitOffTo k n =>
    simp only [act0, World.act, S.get]
    cases hk : w.get k with
    | none => exact no _
    | some y =>
      cases y with
      | iter b r h =>
        simp only [Option.map_some, ren]
        split
        · exact ⟨φ, (S.put (y := .iter ..) trivial).push (y := .iter ..) trivial, rfl⟩
        · exact no _
      | _ => exact no _
  | intoParts k n =>
    simp only [act0, World.act, S.get]
    cases hk : w.get k with
    | none => exact no _
    | some y =>
      cases y with
      | uniq b r h =>
        simp only [Option.map_some, ren]
        split
        · split
          · exact ⟨φ, S.put (y := .parts ..) trivial, rfl⟩
          · exact ⟨φ, S.del, rfl⟩
        · exact no _
      | _ => exact no _
  | nextPart e k =>
    simp only [act0, World.act, S.get]
    cases hk : w.get k with
    | none => exact no _
    | some y =>
      cases y with
      | parts b l h =>
        simp only [Option.map_some, ren]
        split
        · exact no _
        · exact ⟨φ, (S.put (y := .parts ..) trivial).push (y := .uniq ..) trivial, rfl⟩
      | _ => exact no _

theorem call (S : Same φ w v) (op : Spec.Op α) :
    ∃ φ', Same φ' (call0 umax w op).1 (v.call umax op).1 ∧ (v.call umax op).2 = (call0 umax w op).2 := by
  obtain ⟨φ', S', e⟩ := S.act (umax := umax) op
  exact ⟨φ', S'.settle, e⟩

theorem weakH (S : Same φ w v) (h : f < w.fams.length) (y : Hand) (hy : below w.fams.length y) :
    World.weakHere (φ f) p (ren φ y) = World.weakHere f p y := by
  cases y <;> simp only [ren, World.weakHere]
  rw [S.beq h hy]

theorem mild (S : Same φ w v) {op : Spec.Op α} (h : w.Mild op) : v.Mild op := by
  cases op with
  | getMut k j x =>
    intro f p hk hw
    rw [S.get] at hk
    cases e : w.get k with
    | none => rw [e] at hk; cases hk
    | some y =>
      have hy := S.ok' e
      rw [e] at hk
      cases y <;> simp only [Option.map_some, ren, Option.some.injEq, Hand.shared.injEq, reduceCtorEq] at hk
      obtain ⟨rfl, rfl⟩ := hk
      rw [S.other (S.sharedC hy)]
      rw [S.other (S.weakC hy)] at hw
      exact h _ _ e hw
  | _ => trivial

theorem arcCall (S : Same φ w v) {op : Spec.Op α} {o : Obs α} {w' : World α} (h : ArcCall0 umax w op o w') :
    ∃ φ' v', v.ArcCall umax op o v' ∧ Same φ' w' v' := by
  cases h with
  | same h =>
    obtain ⟨φ', S', e⟩ := S.call (umax := umax) op
    exact ⟨φ', _, e ▸ .same (S.mild h), S'⟩
  | granted hk hs =>
    have hy := S.ok' hk
    refine ⟨φ, _, .granted (by rw [S.get, hk]; rfl) (by rw [S.other (S.sharedC hy)]; exact hs), ?_⟩
    simp only [World.wrote]
    rw [S.rangeOf hy, (S.fam _ hy).2]
    split
    · exact (S.store _ _ _).settle
    · exact S.settle
  | refused hk hw =>
    have hy := S.ok' hk
    exact ⟨φ, _, .refused (by rw [S.get, hk]; rfl) (by rw [S.other (S.weakH hy)]; exact hw), S.settle⟩

end Same

theorem Same.refl0 (zst : Bool) : Same id (World.empty zst : World α) (World.empty zst) where
  zst := rfl
  nbuf := rfl
  items := rfl
  mem := rfl
  hs := rfl
  fam f h := absurd h (Nat.not_lt_zero _)
  inj f f' h := absurd h (Nat.not_lt_zero _)
  ok k y h := by cases h

/-- The states of the program and the specification belong together. -/
def Tied (P : Rules α) (umax : Nat) (zst : Bool) (s : Seq α) (v : World α) : Prop := ∃ w φ, SR P umax zst s w ∧ Same φ w v

theorem Tied.init (P : Rules α) (umax : Nat) (zst : Bool) : Tied P umax zst (Seq.init zst : Seq α) (World.empty zst) :=
  ⟨_, _, SR.init umax zst, Same.refl0 zst⟩

theorem Tied.call {P : Rules α} [Solo P] {zst : Bool} {s : Seq α} {v : World α} (T : Tied P umax zst s v) (op : Spec.Op α) :
    ∃ o s' v', s.Does umax op o s' ∧ v.ArcCall umax op o v' ∧ Tied P umax zst s' v' := by
  obtain ⟨w, φ, R, S⟩ := T
  obtain ⟨o, s', w', h1, h2, R'⟩ := does_any R op
  obtain ⟨φ', v', h3, S'⟩ := S.arcCall h2
  exact ⟨o, s', v', h1, h3, w', φ', R', S'⟩

/-- A program that uses `ArcSlice` from a single thread does what the specification says. -/
theorem Tied.run {P : Rules α} [Solo P] {zst : Bool} {s : Seq α} {v : World α} (T : Tied P umax zst s v) (ops : List (Spec.Op α)) :
    ∃ os s' v', s.Run umax ops os s' ∧ v.ArcRun umax ops os v' ∧ Tied P umax zst s' v' := by
  induction ops generalizing s v with
  | nil => exact ⟨[], s, v, .nil s, .nil v, T⟩
  | cons op ops ih =>
    obtain ⟨o, s1, v1, h1, h2, T1⟩ := T.call op
    obtain ⟨os, s2, v2, h3, h4, T2⟩ := ih T1
    exact ⟨o :: os, s2, v2, .cons h1 h3, .cons h2 h4, T2⟩

end Verif.Arc

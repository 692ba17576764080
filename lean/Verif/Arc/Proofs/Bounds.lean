import Verif.Arc.Proofs.BoundCount
import Verif.Arc.Proofs.HomeThread
import Verif.Arc.Proofs.Return1
/-!
# How much memory and stack is needed: proofs
-/

namespace Verif.Arc
open Verif.Spec (Side Slot Family Rng End)
open Verif.Rc
variable {α : Type} {P : Rules α} {zst : Bool} {c c' : Conf α}

/-! ## Every subslice is allocated once -/

/-- How a slice or subslice comes into being. -/
inductive Born (a a' : Arena α) (x : Nat) : Prop
  | root (hp : (a'.b.sk.lab x).path = []) (hf : a.b.sk.nfam ≤ (a'.b.sk.lab x).fam)
  | kid (d : Nat) (s : Side) (v : DataV) (hd : a.b.sk.node d = some (.data v)) (hk : v.kids s = none) (hs : ¬ sameNode v.len s = true)
      (hl : a'.b.sk.lab x = (a.b.sk.lab d).child s) (hk' : ∃ v', a'.b.sk.node d = some (.data v') ∧ v'.kids s = some x)

/-- What is new. -/
def NewIn (a a' : Arena α) (x : Nat) : Prop := a.b.sk.next ≤ x ∧ x < a'.b.sk.next ∧ a'.b.sk.kind x = .data

theorem born_pc {a a' : Arena α} {pc : Pc α} {n : Next α} {T : List AT} {bh : Option Handle} (I : HInv a.b T) (hp : pcOK a bh pc) (hs : PStep a pc a' n)
    {x : Nat} (hx : NewIn a a' x) : Born a a' x ∧ ∀ y, NewIn a a' y → y = x := by
  obtain ⟨h1, h2, h3⟩ := hx
  have same : ∀ {h : Heap α}, h.sk = a.b.sk → x < h.sk.next → False := fun e h => by rw [e] at h; omega
  have root : ∀ {a0 : Arena α} {r : Reg} {d : Nat}, a0.root r = (a', d) → a0.b.sk.nfam = a.b.sk.nfam → a.b.sk.next ≤ a0.b.sk.next →
      (∀ y, a.b.sk.next ≤ y → y < a0.b.sk.next → a0.b.sk.kind y ≠ .data) →
      Born a a' x ∧ ∀ y, NewIn a a' y → y = x := by
    intro a0 r d e e1 e3 e2
    have hre := root_eq e
    have all : ∀ y, NewIn a a' y → y = d := by
      rintro y ⟨g1, g2, g3⟩
      rw [hre.2.1] at g2
      by_cases hy : y = d
      · exact hy
      · rw [hre.2.2.2.2.2.2.2.2.2.2.2, upd_ne _ _ hy] at g3
        exact absurd g3 (e2 y g1 (by have := hre.1; omega))
    have hxd := all x ⟨h1, h2, h3⟩
    refine ⟨.root ?_ ?_, fun y hy => by rw [all y hy, hxd]⟩ <;> rw [hxd, hre.2.2.2.2.2.2.2.2.2.1]
    exact Nat.le_of_eq e1.symm
  cases hs
  case new0 xs hl r d hr e => exact root e rfl (Nat.le_refl _) fun y g1 g2 => absurd g2 (Nat.not_lt.2 g1)
  case new1 xs hl r h1' al d eh hr e =>
    cases eh
    refine root e rfl (Nat.le_succ _) fun y g1 g2 => ?_
    have : y = a.b.sk.next := by
      have g2 : y < a.b.sk.next + 1 := g2
      omega
    subst this
    show upd _ a.b.sk.next _ a.b.sk.next ≠ _
    rw [upd_same]
    simp [Node.kind]
  case mutNew xs h r e =>
    simp only [mutFromBox] at e
    split at e <;> cases e
    · exact absurd h2 (Nat.not_lt.2 h1)
    · have h2 : x < a.b.sk.next + 1 := h2
      have : x = a.b.sk.next := by omega
      subst this
      have h3 : upd a.b.sk.kind a.b.sk.next _ a.b.sk.next = _ := h3
      rw [upd_same] at h3
      cases h3
  case immut r d e => exact root e rfl (Nat.le_refl _) fun y g1 g2 => absurd g2 (Nat.not_lt.2 g1)
  case split e => exact (same (regSplit_same e) h2).elim
  case nxt e => exact (same (iterNext_sk e) h2).elim
  case cutF e => exact (same (iterSplit_same e).1 h2).elim
  case cutB e => exact (same (iterSplit_same e).1 h2).elim
  case cl1 e => exact (same (incS_same e).1 h2).elim
  case csSame e => exact (same (incS_same e).1 h2).elim
  case csInc e => exact (same (incS_same e).1 h2).elim
  case csLose e => exact (same (incS_same e).1 h2).elim
  case gParUp e => exact (same (incS_same e).1 h2).elim
  case up e => exact (same (incS_same e).1 h2).elim
  case csNew e => exact (same (incSOpt_same e).1 h2).elim
  case csWin d s r v h1' c h2' hd hk e1 e2 =>
    have hlt := I.good.ledger.lt (getData_some hd)
    cases e1
    obtain ⟨_, rfl⟩ := incS_some e2
    have all : ∀ y, a.b.sk.next ≤ y → y < a.b.sk.next + 1 → y = a.b.sk.next := fun y _ _ => by omega
    have hxn := all x h1 h2
    refine ⟨?_, fun y hy => by rw [hxn]; exact all y hy.1 hy.2.1⟩
    subst hxn
    obtain ⟨g, v', _, hv', hs', _⟩ := hp
    rw [getData_some hd] at hv'
    cases hv'
    refine .kid d s v (getData_some hd) hk hs' ?_ ⟨v.setKid s a.b.sk.next, ?_, ?_⟩
    · show upd _ a.b.sk.next _ a.b.sk.next = _
      rw [upd_same]
    · show upd _ d _ d = _
      rw [upd_same]
    · rw [DataV.setKid_kids, if_pos rfl]
  all_goals exact absurd h2 (Nat.not_lt.2 h1)

/-- What has been allocated so far. -/
structure Hist (k : Skel) : Prop where
  proper : ∀ x, x < k.next → k.kind x = .data → Proper (k.fams (k.lab x).fam).rng (k.lab x).path
  uniq : ∀ x y, x < k.next → y < k.next → k.kind x = .data → k.kind y = .data → k.lab x = k.lab y → x = y
  free : ∀ d v s x, k.node d = some (.data v) → v.kids s = none → x < k.next → k.kind x = .data → ¬ ((k.lab d).child s).up (k.lab x)

theorem Hist.next {a a' : Arena α} (H : Hist a.b.sk) (S : Shape a.b.sk) (S' : Shape a'.b.sk) (hlt : ∀ x n, a'.b.sk.node x = some n → x < a'.b.sk.next)
    (hlt0 : ∀ x n, a.b.sk.node x = some n → x < a.b.sk.next) (e : Evo a.b.sk a'.b.sk)
    (hf : ∀ f, f < a.b.sk.nfam → a'.b.sk.fams f = a.b.sk.fams f) (hb : ∀ x, NewIn a a' x → Born a a' x ∧ ∀ y, NewIn a a' y → y = x) : Hist a'.b.sk := by
  have dat : ∀ {x : Nat}, a.b.sk.kind x = .data → a.b.sk.kind x ≠ .alloc := fun h => by rw [h]; simp
  have old : ∀ {x : Nat}, x < a.b.sk.next → a'.b.sk.kind x = .data → a.b.sk.kind x = .data ∧ (a.b.sk.lab x).fam < a.b.sk.nfam := fun h h1 => by
    rw [e.kind _ h] at h1
    exact ⟨h1, S.famLt _ h (dat h1)⟩
  have fresh : ∀ {x y : Nat}, x < a.b.sk.next → a'.b.sk.kind x = .data → a.b.sk.nfam ≤ (a'.b.sk.lab y).fam → (a.b.sk.lab x).fam ≠ (a'.b.sk.lab y).fam :=
    fun h h1 h2 h3 => by have := (old h h1).2; omega
  have live : ∀ {d : Nat} {v' : DataV}, d < a.b.sk.next → a'.b.sk.node d = some (.data v') → ∃ v, a.b.sk.node d = some (.data v) ∧
      ∀ s, v'.kids s = none → v.kids s = none := by
    intro d v' hd hv
    cases hn : a.b.sk.node d with
    | none => rw [e.dead d hd hn] at hv; cases hv
    | some n =>
      have hk := (old hd (S'.kinds _ _ hv)).1
      rw [S.kinds _ _ hn] at hk
      obtain ⟨v, rfl⟩ := data_of_kind hk
      refine ⟨v, rfl, fun s hs => ?_⟩
      cases hv0 : v.kids s with
      | none => rfl
      | some c0 =>
        obtain ⟨v2, h1, _, _, _, _, h2⟩ := e.data d v _ hn hv
        cases h1
        rw [h2 s c0 hv0] at hs; cases hs
  have oldnew : ∀ {x y : Nat}, x < a.b.sk.next → a'.b.sk.kind x = .data → NewIn a a' y → a'.b.sk.lab x ≠ a'.b.sk.lab y := by
    intro x y hx hk hy he
    rw [e.lab x hx] at he
    cases (hb y hy).1 with
    | root hp hf => exact fresh hx hk hf (by rw [he])
    | kid d s v hd hk0 hs hl _ => exact H.free d v s x hd hk0 hx (old hx hk).1 (by rw [he, hl]; exact Lab.up_refl _)
  refine ⟨fun x hx hk => ?_, fun x y hx hy hkx hky he => ?_, fun d v' s x hd hs hx hk hu => ?_⟩
  · by_cases hx0 : x < a.b.sk.next
    · rw [e.lab x hx0, hf _ (old hx0 hk).2]
      exact H.proper x hx0 (old hx0 hk).1
    · cases (hb x ⟨by omega, hx, hk⟩).1 with
      | root hp _ => rw [hp]; trivial
      | kid d s v hd hk0 hs hl _ =>
        have hd0 := hlt0 d _ hd
        have hkd := S.kinds _ _ hd
        have hfd : (a.b.sk.lab d).fam < a.b.sk.nfam := S.famLt _ hd0 (by rw [hkd]; simp [Node.kind])
        rw [hl]
        show Proper (a'.b.sk.fams (a.b.sk.lab d).fam).rng (s :: (a.b.sk.lab d).path)
        rw [hf _ hfd]
        refine ⟨H.proper d hd0 hkd, ?_⟩
        rw [← (S.dataFam d v hd).2.1]
        exact hs
  · by_cases hx0 : x < a.b.sk.next
    · by_cases hy0 : y < a.b.sk.next
      · rw [e.lab x hx0, e.lab y hy0] at he
        exact H.uniq x y hx0 hy0 (old hx0 hkx).1 (old hy0 hky).1 he
      · exact absurd he (oldnew hx0 hkx ⟨by omega, hy, hky⟩)
    · by_cases hy0 : y < a.b.sk.next
      · exact absurd he.symm (oldnew hy0 hky ⟨by omega, hx, hkx⟩)
      · exact ((hb x ⟨by omega, hx, hkx⟩).2 y ⟨by omega, hy, hky⟩).symm
  · have hkd : a'.b.sk.kind d = .data := S'.kinds _ _ hd
    by_cases hd0 : d < a.b.sk.next
    · obtain ⟨v, hv, hkids⟩ := live hd0 hd
      have hfree := fun x => H.free d v s x hv (hkids s hs)
      rw [e.lab d hd0] at hu
      by_cases hx0 : x < a.b.sk.next
      · rw [e.lab x hx0] at hu
        exact hfree x hx0 (old hx0 hk).1 hu
      · cases (hb x ⟨by omega, hx, hk⟩).1 with
        | root hp hf => exact fresh hd0 hkd hf hu.1
        | kid q t w hq hk0 hs0 hl hk' =>
          rw [hl, Lab.up_child_iff] at hu
          rcases hu with hu | hu
          · obtain ⟨h1, rfl⟩ := Lab.child_inj hu
            have := S.dataUniq d v q w hv hq h1
            subst this
            obtain ⟨v2, h2, h3⟩ := hk'
            rw [hd] at h2; cases h2
            rw [hs] at h3; cases h3
          · exact hfree q (hlt0 q _ hq) (S.kinds _ _ hq) hu
    · have hnd : NewIn a a' d := ⟨by omega, hlt d _ hd, hkd⟩
      by_cases hx0 : x < a.b.sk.next
      · rw [e.lab x hx0] at hu
        cases (hb d hnd).1 with
        | root hp hf => exact fresh hx0 hk hf hu.1.symm
        | kid q t w hq hk0 hs0 hl hk' =>
          rw [hl] at hu
          exact H.free q w t x hq hk0 hx0 (old hx0 hk).1 (Lab.up_of_child hu)
      · have := (hb d hnd).2 x ⟨by omega, hx, hk⟩
        subst this
        exact Lab.not_child_up _ _ hu

theorem fams_pc {a a' : Arena α} {T : List AT} {pc : Pc α} {n : Next α} (I : HInv a.b (pcT pc ++ T)) (e : PStep a pc a' n) :
    ∀ f, f < a.b.sk.nfam → a'.b.sk.fams f = a.b.sk.fams f := by
  have kp : calm pc → ∀ f, f < a.b.sk.nfam → a'.b.sk.fams f = a.b.sk.fams f := fun h f _ => by rw [(keep_pc I e h).fams]
  cases e with
  | new0 xs hl r a1 d hr e => cases e; exact (root_grow (a.withB (newBuf a.b xs).1) _).fams
  | new1 xs hl r h1 al a1 d eh hr e => cases e; cases eh; exact (root_grow (a.withB ((newBuf a.b xs).1.rcNew _ _).1) _).fams
  | mutNew xs h r e =>
    simp only [mutFromBox] at e
    split at e <;> cases e <;> exact fun _ _ => rfl
  | immut r a1 d e => cases e; exact (root_grow a _).fams
  | nxt en r h o r' ts re hre e => intro f _; show h.sk.fams f = _; rw [iterNext_sk e]
  | _ => exact kp trivial

/-! ## Destructors in destructors -/

def nest (ts : List ATask) : Nat := ts.countP ATask.isReg

/-- A number of nested destructors there is reason for. -/
def Below (k : Skel) (n : Nat) : Prop := n = 0 ∨ ∃ x, x < k.next ∧ k.kind x = .data ∧ n ≤ (k.lab x).path.length

/-- A pending drop inside of `n` destructors. -/
def taskN (k : Skel) (n : Nat) : ATask → Prop
  | .base (.dropS x) | .slice x _ => k.kind x = .data → n ≤ (k.lab x).path.length
  | .base (.dropReg _) => Below k n
  | _ => True

def TN (k : Skel) : List ATask → Prop
  | [] => True
  | t :: ts => taskN k (nest ts) t ∧ TN k ts

theorem nest_append (ts us : List ATask) : nest (ts ++ us) = nest ts + nest us := List.countP_append ..

theorem Below.mono {k k' : Skel} (e : Evo k k') {n : Nat} (h : Below k n) : Below k' n := by
  rcases h with h | ⟨x, h1, h2, h3⟩
  · exact .inl h
  · exact .inr ⟨x, Nat.lt_of_lt_of_le h1 e.next, by rw [e.kind x h1]; exact h2, by rw [e.lab x h1]; exact h3⟩

theorem taskN.mono {k k' : Skel} (e : Evo k k') {n : Nat} {t : ATask} (hx : ∀ x, .ref x ∈ ataskT t → x < k.next) (h : taskN k n t) : taskN k' n t := by
  cases t with
  | base t => cases t with
    | dropS x =>
      intro hk
      have := hx x (by simp [ataskT, taskT])
      rw [e.kind x this] at hk
      rw [e.lab x this]
      exact h hk
    | dropReg r => exact Below.mono e h
    | _ => trivial
  | slice x g =>
    intro hk
    have := hx x (by simp [ataskT])
    rw [e.kind x this] at hk
    rw [e.lab x this]
    exact h hk
  | guard g => trivial

theorem TN.mono {k k' : Skel} (e : Evo k k') {ts : List ATask} (hx : ∀ x, .ref x ∈ ts.flatMap ataskT → x < k.next) (h : TN k ts) : TN k' ts := by
  induction ts with
  | nil => trivial
  | cons t ts ih =>
    exact ⟨h.1.mono e fun x h => hx x (by simp [h]), ih (fun x h => hx x (by rw [List.flatMap_cons]; exact List.mem_append.2 (.inr h))) h.2⟩

theorem taskN.zero (k : Skel) (t : ATask) : taskN k 0 t := by
  cases t with
  | base t => cases t with
    | dropS x => exact fun _ => Nat.zero_le _
    | dropReg r => exact .inl rfl
    | _ => trivial
  | slice x g => exact fun _ => Nat.zero_le _
  | guard g => trivial

theorem TN.flat {k : Skel} {ts : List ATask} (h : nest ts.tail = 0) : TN k ts := by
  have all : ∀ us : List ATask, nest us = 0 → TN k us := by
    intro us
    induction us with
    | nil => exact fun _ => trivial
    | cons t us ih =>
      intro h
      have h1 : nest us = 0 := by
        simp only [nest, List.countP_cons] at h ⊢
        omega
      exact ⟨by rw [h1]; exact taskN.zero k t, ih h1⟩
  cases ts with
  | nil => trivial
  | cons t ts =>
    have h : nest ts = 0 := h
    exact ⟨by rw [h]; exact taskN.zero k t, all ts h⟩

theorem TN.append {k : Skel} {ts us : List ATask} (h : TN k ts) (h1 : nest us = 0) : TN k (ts ++ us) := by
  induction ts with
  | nil => exact TN.flat (by cases us <;> simp_all [nest, List.countP_cons])
  | cons t ts ih =>
    refine ⟨?_, ih h.2⟩
    show taskN k (nest (ts ++ us)) t
    rw [nest_append, h1]; exact h.1

theorem nest_map {l : List Nat} : nest (l.map fun x => ATask.base (.dropS x)) = 0 := by
  induction l <;> simp_all [nest, ATask.isReg]

theorem TN.kids {k : Skel} {l : List Nat} {ts : List ATask} (h : TN k ts) (hl : ∀ x ∈ l, k.kind x = .data → nest ts ≤ (k.lab x).path.length) :
    TN k (l.map (fun x => ATask.base (.dropS x)) ++ ts) := by
  induction l with
  | nil => exact h
  | cons x l ih =>
    refine ⟨?_, ih fun y hy => hl y (by simp [hy])⟩
    show taskN k (nest (l.map (fun x => ATask.base (.dropS x)) ++ ts)) (.base (.dropS x))
    rw [nest_append, nest_map, Nat.zero_add]
    exact hl x (by simp)

/-- Dropping an `Arc`. -/
theorem drop_n {h h' : Heap α} {U : List AT} {d : Nat} {ts : List Task} {rest : List ATask} (I : HInv h U)
    (hd : h.sk.kind d = .data → nest rest ≤ (h.sk.lab d).path.length) (hr : TN h.sk rest) (e : dropStrong h d = .ok (h', ts)) :
    TN h.sk (ts.map .base ++ rest) := by
  simp only [dropStrong] at e
  split at e
  · cases e
  · split at e
    · cases e; exact hr
    · split at e
      · cases e
      · next v hv =>
        cases e
        have hk := I.good.shape.kinds _ _ hv
        have hlt := I.good.ledger.lt hv
        have h1 := hd hk
        have h2 : TN h.sk (.base (.dropReg ⟨v.buf, v.dropRange.1, v.dropRange.2, v.alloc⟩) :: rest) := ⟨.inr ⟨d, hlt, hk, h1⟩, hr⟩
        have h3 : ∀ s, ∀ x ∈ (v.kids s).toList, h.sk.kind x = .data →
            nest (ATask.base (.dropReg ⟨v.buf, v.dropRange.1, v.dropRange.2, v.alloc⟩) :: rest) ≤ (h.sk.lab x).path.length := by
          intro s x hx _
          have := (I.good.shape.dataKid d v s x hv (by simpa using hx)).2.1
          rw [this]
          simp only [nest, List.countP_cons, ATask.isReg, Lab.child, List.length_cons, ↓reduceIte] at h1 ⊢
          omega
        have h4 := TN.kids h2 (h3 .R)
        have h5 := TN.kids (l := (v.kids .L).toList) h4 (by
          rw [nest_append, nest_map, Nat.zero_add]
          exact h3 .L)
        simpa [List.map_append, List.map_map, Function.comp_def, List.append_assoc] using h5
      · next v hv => rcases I.only _ _ hv with h | h <;> cases h
      · next v hv => rcases I.only _ _ hv with h | h <;> cases h
      · split at e
        · cases e; exact hr
        · split at e <;> cases e
          exact hr

theorem task_n {a a' : Arena α} {U : List AT} {x : ATask} {ts rest : List ATask} (I : HInv a.b (ataskT x ++ U)) (hp : aplain x)
    (hx : TN a.b.sk (x :: rest)) (e : ataskStep a x = .ok (a', ts)) : TN a.b.sk (ts ++ rest) := by
  obtain ⟨hx, hr⟩ := hx
  cases x with
  | slice d g =>
    obtain ⟨⟨h', ts'⟩, e1, e2⟩ := bind_ok e
    cases pure_ok e2
    have : TN a.b.sk (.guard g :: rest) := ⟨trivial, hr⟩
    have h2 : nest (ATask.guard g :: rest) = nest rest := by simp [nest, ATask.isReg]
    have := drop_n (rest := .guard g :: rest) I (by rw [h2]; exact hx) this e1
    simpa using this
  | guard g =>
    simp only [ataskStep, Arena.dropG] at e
    repeat' split at e
    all_goals first
      | (cases e; done)
      | (cases e; exact hr)
      | (cases e
         rename_i v _
         cases hv : v.parent with
         | none => exact hr
         | some p => exact ⟨trivial, hr⟩)
  | base x =>
    obtain ⟨⟨h', ts'⟩, e1, e2⟩ := bind_ok e
    cases pure_ok e2
    cases x with
    | dropS d => exact drop_n I hx hr e1
    | dropRcSlice d i => exact hp.elim
    | userCode => cases e1; exact hr
    | dropReg r =>
      simp only [Rc.taskStep] at e1
      split at e1
      · cases e1
        rw [List.map_map]
        refine TN.kids hr fun y hy hk => ?_
        have := (I.regs r (by simp [ataskT, taskT])).1 y (by simpa using hy)
        rw [I.good.shape.kinds _ _ this] at hk
        cases hk
      · split at e1
        · cases e1
        · split at e1
          · cases e1
            exact ⟨trivial, hx, hr⟩
          · cases e1

theorem pc_n {a a' : Arena α} {pc : Pc α} {n : Next α} (e : PStep a pc a' n) (k : Skel) : TN k n.tasks := by
  have gs : ∀ l : List Nat, nest (l.map ATask.guard).tail = 0 := by
    intro l
    cases l with
    | nil => rfl
    | cons x l => induction l <;> simp_all [nest, ATask.isReg]
  cases e with
  | nxt en r h o r' ts re hre e =>
    have : ∃ l : List Nat, ts = l.map .dropS := by
      simp only [iterNext] at e
      split at e
      · cases e; exact ⟨_, rfl⟩
      · split at e
        · cases e
        · split at e
          · cases en <;> simp only at e <;> split at e <;> cases e <;> first | exact ⟨_, rfl⟩ | exact ⟨[], rfl⟩
          · cases e
    obtain ⟨l, rfl⟩ := this
    show TN k ((l.map Task.dropS).map ATask.base)
    rw [List.map_map]
    have := TN.kids (k := k) (l := l) (ts := []) trivial (fun _ _ _ => Nat.zero_le _)
    rwa [List.append_nil] at this
  | gTryNo => exact TN.flat (gs _)
  | gTryOk => exact TN.flat (gs _)
  | _ => exact TN.flat rfl

theorem unwind_n {k : Skel} {h : Heap α} {ts : List ATask} : nest (unwind h ts).2 = nest ts ∧ (TN k ts → TN k (unwind h ts).2) := by
  induction ts generalizing h with
  | nil => exact ⟨rfl, fun h => h⟩
  | cons t ts ih =>
    have other : ∀ {h1 : Heap α}, unwind h (t :: ts) = ((unwind h1 ts).1, t :: (unwind h1 ts).2) →
        nest (unwind h (t :: ts)).2 = nest (t :: ts) ∧ (TN k (t :: ts) → TN k (unwind h (t :: ts)).2) := by
      intro h1 e
      rw [e]
      have := ih (h := h1)
      refine ⟨?_, fun hh => ⟨by rw [this.1]; exact hh.1, this.2 hh.2⟩⟩
      have h2 := this.1
      simp only [nest, List.countP_cons] at h2 ⊢
      omega
    cases t with
    | base t => cases t with
      | dropReg r =>
        have := ih (h := h.lose r)
        refine ⟨?_, fun hh => ⟨by rw [this.1]; exact hh.1, this.2 hh.2⟩⟩
        have h2 := this.1
        simp only [unwind, nest, List.countP_cons, ATask.isReg] at h2 ⊢
        omega
      | _ => exact other rfl
    | slice => exact other rfl
    | guard => exact other rfl

/-! ## `forget_items` in `forget_items` -/

def fgN (k : Skel) (n : Nat) : Fg → Prop
  | .kid x => x < k.next ∧ k.kind x = .data ∧ n ≤ (k.lab x).path.length
  | .val _ => Below k n

def FN (k : Skel) : List Fg → Prop
  | [] => True
  | t :: ts => fgN k (ts.countP Fg.isVal) t ∧ FN k ts

theorem FN.mono {k k' : Skel} (e : Evo k k') {ts : List Fg} (h : FN k ts) : FN k' ts := by
  induction ts with
  | nil => trivial
  | cons t ts ih =>
    refine ⟨?_, ih h.2⟩
    cases t with
    | kid x =>
      obtain ⟨h1, h2, h3⟩ := h.1
      exact ⟨Nat.lt_of_lt_of_le h1 e.next, by rw [e.kind x h1]; exact h2, by rw [e.lab x h1]; exact h3⟩
    | val r => exact Below.mono e h.1

theorem FN.kids {h : Heap α} {U : List AT} (I : HInv h U) {d : Nat} {v : DataV} (hv : h.sk.node d = some (.data v)) {ts : List Fg} (hr : FN h.sk ts)
    (hd : ts.countP Fg.isVal ≤ (h.sk.lab d).path.length + 1) : FN h.sk (kidsFg v ++ ts) := by
  have one : ∀ (s : Side) {ts : List Fg}, FN h.sk ts → ts.countP Fg.isVal ≤ (h.sk.lab d).path.length + 1 →
      FN h.sk ((v.kids s).toList.map .kid ++ ts) ∧ ((v.kids s).toList.map Fg.kid ++ ts).countP Fg.isVal ≤ (h.sk.lab d).path.length + 1 := by
    intro s ts hr hd
    cases hk : v.kids s with
    | none => exact ⟨hr, hd⟩
    | some c0 =>
      obtain ⟨_, h2, vc, h3⟩ := I.good.shape.dataKid d v s c0 hv hk
      refine ⟨⟨⟨I.good.ledger.lt h3, I.good.shape.kinds _ _ h3, ?_⟩, hr⟩, ?_⟩
      · rw [h2]; exact hd
      · simpa [List.countP_cons, Fg.isVal] using hd
  have h1 := one .R hr hd
  have h2 := one .L h1.1 h1.2
  rw [kidsFg, List.append_assoc]
  exact h2.1

theorem pc_f {a a' : Arena α} {U : List AT} {pc : Pc α} {n : Next α} (I : HInv a.b U) (hp : ∀ todo g r acc, pc = .imFg todo g r acc → FN a.b.sk todo)
    (e : PStep a pc a' n) : ∀ todo g r acc, n.pc = .imFg todo g r acc → FN a.b.sk todo := by
  intro todo g r acc hn
  cases e with
  | im2 d g v hd hc =>
    cases hn
    have := FN.kids I (getData_some hd) (ts := []) trivial (Nat.zero_le _)
    rwa [List.append_nil] at this
  | imKid c0 todo g r acc v hd hc =>
    cases hn
    obtain ⟨⟨h1, h2, h3⟩, h4⟩ := hp _ _ _ _ rfl
    refine FN.kids I (getData_some hd) ⟨.inr ⟨c0, h1, h2, h3⟩, h4⟩ ?_
    simp only [List.countP_cons, Fg.isVal, ↓reduceIte]
    omega
  | imKidNo c0 todo g r acc v hd hc => cases hn; exact (hp _ _ _ _ rfl).2
  | imVal w todo g r acc => cases hn; exact (hp _ _ _ _ rfl).2
  | _ => cases hn

/-! ## All states -/

structure Conf.DI (c : Conf α) : Prop where
  hist : Hist c.a.b.sk
  tasks : ∀ (i : Nat) cl, c.calls[i]? = some cl → TN c.a.b.sk cl.tasks
  fg : ∀ (i : Nat) cl, c.calls[i]? = some cl → ∀ todo g r acc, cl.pc = .imFg todo g r acc → FN c.a.b.sk todo

theorem task_next {a a' : Arena α} {t : ATask} {ts : List ATask} {T : List AT} (I : HInv a.b (ataskT t ++ T)) (hp : aplain t)
    (e : ataskStep a t = .ok (a', ts)) : a'.b.sk.next = a.b.sk.next := (task_led I hp e 0).1

theorem Conf.DI.step {b : Bool} {i : Nat} (D : c.DI) (A : c.IA b) (e : c.step i = .ok c') : c'.DI := by
  obtain ⟨c3, e3, A', ge⟩ := A.step (i := i)
  rw [e] at e3; cases e3
  have B := A.bi
  have B' := A'.bi
  have ev := ge.evo.evo
  have oldtok : ∀ {j : Nat} {cl : Call α}, c.calls[j]? = some cl → ∀ x, .ref x ∈ cl.tasks.flatMap ataskT → x < c.a.b.sk.next := fun hj x hx =>
    B.heap.lt (ref_mem_aS (Conf.call_tok hj (by simp only [callT, List.mem_append]; exact .inl hx)))
  have newtok : ∀ {j : Nat} {cl : Call α}, c'.calls[j]? = some cl → ∀ x, .ref x ∈ cl.tasks.flatMap ataskT → x < c'.a.b.sk.next := fun hj x hx =>
    B'.heap.lt (ref_mem_aS (Conf.call_tok hj (by simp only [callT, List.mem_append]; exact .inl hx)))
  have hist : (∀ f, f < c.a.b.sk.nfam → c'.a.b.sk.fams f = c.a.b.sk.fams f) →
      (∀ x, NewIn c.a c'.a x → Born c.a c'.a x ∧ ∀ y, NewIn c.a c'.a y → y = x) → Hist c'.a.b.sk := fun h1 h2 =>
    D.hist.next B.heap.good.shape B'.heap.good.shape (fun x n h => B'.heap.good.ledger.lt h) (fun x n h => B.heap.good.ledger.lt h) ev h1 h2
  cases CStep.of e with
  | none hi => exact D
  | task cl t ts a' new hi ht e1 =>
    have I : HInv c.a.b (ataskT t ++ (ts.flatMap ataskT ++ (pcT cl.pc ++ c.rest i))) := by
      refine (B.heap.perm (Conf.T_perm hi)).count fun t ht' => ?_
      simp only [callT, ht, List.flatMap_cons, List.append_assoc]
    have hp := (B.calls i cl hi).2 t (by simp [ht])
    have K := keep_task I hp e1
    have hn := task_next I hp e1
    refine ⟨hist (fun f _ => by show a'.b.sk.fams f = _; rw [K.fams]) fun x hx => ?_, fun j clj hj => ?_, fun j clj hj todo g r acc hpc => ?_⟩
    · have := hx.2.1
      have h2 : x < a'.b.sk.next := this
      have := hx.1
      omega
    · rcases after_calls hi hj with ⟨rfl, rfl⟩ | ⟨_, hj0⟩
      · refine TN.mono ev (fun x hx => ?_) (task_n I hp (by rw [← ht]; exact D.tasks _ cl hi) e1)
        have h2 : x < a'.b.sk.next := newtok hj x hx
        omega
      · exact (D.tasks j clj hj0).mono ev (oldtok hj0)
    · rcases after_calls hi hj with ⟨rfl, rfl⟩ | ⟨_, hj0⟩
      · exact (D.fg _ cl hi todo g r acc hpc).mono ev
      · exact (D.fg j clj hj0 todo g r acc hpc).mono ev
  | pc cl a' n hi ht e1 =>
    have I : HInv c.a.b (pcT cl.pc ++ c.rest i) := by
      refine (B.heap.perm (Conf.T_perm hi)).count fun t ht' => ?_
      simp only [callT, ht, List.flatMap_nil, List.nil_append]
    have s := PStep.of e1
    refine ⟨hist (fams_pc I s) fun x hx => born_pc I (B.calls i cl hi).1 s hx, fun j clj hj => ?_, fun j clj hj todo g r acc hpc => ?_⟩
    · rcases after_calls hi hj with ⟨rfl, rfl⟩ | ⟨_, hj0⟩
      · exact pc_n s _
      · exact (D.tasks j clj hj0).mono ev (oldtok hj0)
    · rcases after_calls hi hj with ⟨rfl, rfl⟩ | ⟨_, hj0⟩
      · exact (pc_f I (D.fg _ cl hi) s todo g r acc hpc).mono ev
      · exact (D.fg j clj hj0 todo g r acc hpc).mono ev

theorem Conf.DI.start {op : Op α} (D : c.DI) (e : c.start op = some c') : c'.DI := by
  have ha := (Conf.start_T e).2
  have new : ∀ {j : Nat} {cl : Call α}, c'.calls[j]? = some cl → c.calls[j]? = some cl ∨ (cl.tasks.length ≤ 1 ∧ ∀ todo g r acc, cl.pc ≠ .imFg todo g r acc) := by
    intro j cl hj
    rcases start_call (.of e) hj with h | ⟨rfl, ho, _, h⟩
    · exact .inl h
    · refine .inr ?_
      rcases h with ⟨_, hp, ht, _⟩ | ⟨_, hp, ht, _⟩ | ⟨k, d, g, hk, _, _, ht, hp⟩ | ⟨k, d, g, b, hk, _, _, ht, hp⟩ |
        ⟨k, d, g, hk, _, _, _, hp⟩ | ⟨k, d, g, b, hk, _, _, _, _, hp, ht⟩ | ⟨k, r, b, hk, _, _, _, hp⟩
      · rw [hp, ht]; simp
      · rw [hp, ht]; simp
      · rcases hp with ⟨_, hp⟩ | ⟨s, _, hp⟩ | ⟨_, hp⟩ <;> rw [hp, ht] <;> simp
      · rcases hp with ⟨_, hp⟩ | ⟨_, hp⟩ <;> rw [hp, ht] <;> simp
      · rcases hp with ⟨_, hp, ht⟩ | ⟨_, hp, ht⟩ | ⟨_, hp, ht⟩ <;> rw [hp, ht] <;> simp
      · rw [hp, ht]; simp
      · rcases hp with ⟨rfl, hp, ht⟩ | ⟨_, rfl, hp, ht⟩ | ⟨_, rfl, hp, ht⟩ | ⟨_, _, rfl, hp, ht⟩ | ⟨rfl, hp, ht⟩ <;> rw [hp, ht] <;> simp
  refine ⟨by rw [ha]; exact D.hist, fun j cl hj => ?_, fun j cl hj todo g r acc hpc => ?_⟩
  · rw [ha]
    rcases new hj with h | ⟨h, _⟩
    · exact D.tasks j cl h
    · refine TN.flat ?_
      match hl : cl.tasks with
      | [] => rfl
      | [_] => rfl
      | _ :: _ :: _ => rw [hl] at h; simp at h
  · rw [ha]
    rcases new hj with h | ⟨_, h⟩
    · exact D.fg j cl h todo g r acc hpc
    · exact absurd hpc (h todo g r acc)

theorem Conf.DI.write {en : Ent} {j : Nat} {x : α} (D : c.DI) (e : c.write en j x = .ok c') : c'.DI := by
  rcases Conf.write_cases e with rfl | ⟨_, _, rfl⟩
  · exact D
  · exact ⟨D.hist, D.tasks, D.fg⟩

theorem Conf.DI.panic {i : Nat} (D : c.DI) (B : c.BI) (e : c.panic i = some c') : c'.DI := by
  obtain ⟨cl, r, ts, ts', us, sl, p⟩ := Panicked.of B.heap e
  have h1 : c'.a.b.sk = c.a.b.sk := by rw [p.eq]; rfl
  have hus : nest us = 0 := by
    rcases cleanup_cases p.clean with ⟨r, hpc, rfl⟩ | ⟨x0, b, og, fs, y, hpc, rfl⟩
    · rfl
    · have g1 : nest (og.toList.map ATask.guard) = 0 := by cases og <;> rfl
      have g2 : nest (fs.map fun f => ATask.base (.dropS f.p)) = 0 := by
        have := nest_map (l := fs.map GFrame.p)
        rwa [List.map_map] at this
      rw [nest_append, nest_append, g1, g2]; rfl
  have hts : ts' = (unwind c.a.b ts).2 := by
    have e0 := e
    simp only [Conf.panic, p.call, p.tasks, p.clean, Option.some.injEq] at e0
    have e1 := p.eq
    rw [← e0] at e1
    have e2 := congrArg (fun c : Conf α => c.calls[i]?) e1
    have hl := (List.getElem?_eq_some_iff.1 p.call).1
    simp only [List.getElem?_set, hl, ↓reduceIte, Option.some.injEq, Call.mk.injEq, List.cons.injEq, true_and] at e2
    have := e2
    simp at this
    exact this.symm
  refine ⟨by rw [h1]; exact D.hist, fun j clj hj => ?_, fun j clj hj todo g r acc hpc => ?_⟩
  · rw [h1]
    rcases p.calls hj with ⟨rfl, rfl⟩ | ⟨_, hj⟩
    · have h2 := D.tasks _ cl p.call
      rw [p.tasks] at h2
      obtain ⟨_, h3, h4⟩ := h2
      subst hts
      refine ⟨?_, ((unwind_n).2 h4).append hus⟩
      rw [nest_append, hus, (unwind_n (k := c.a.b.sk)).1]
      exact h3
    · exact D.tasks j clj hj
  · rw [h1]
    rcases p.calls hj with ⟨rfl, rfl⟩ | ⟨_, hj⟩
    · cases hpc
    · exact D.fg j clj hj todo g r acc hpc

theorem Conf.PReach.DI (hP : PTame P) (h : Conf.PReach P zst c) : c.DI := by
  induction h with
  | init =>
    refine ⟨⟨fun x hx => absurd hx (Nat.not_lt_zero _), fun x y hx => absurd hx (Nat.not_lt_zero _), fun d v s x _ _ hx => absurd hx (Nat.not_lt_zero _)⟩,
      fun i cl hi => (by cases hi), fun i cl hi => (by cases hi)⟩
  | run h i e ih => exact ih.step (h.IA' hP) e
  | start h op hp e ih => exact ih.start e
  | write h k en j x hk hw e ih => exact ih.write e
  | panic h i e ih => exact ih.panic (h.BI hP) e

/-! ## One guard for each subslice -/

def GU (a : Arena α) : Prop := ∀ g h v w, a.guard g = some v → a.guard h = some w → a.gOf g = a.gOf h → g = h

theorem newGuard_pc {a a' : Arena α} {pc : Pc α} {n : Next α} (e : PStep a pc a' n) {g : Nat} (h1 : a.ng ≤ g) (h2 : g < a'.ng) :
    ∃ n, a'.b.sk.node (a'.gOf g) = some n := by
  cases e
  case new0 xs hl r d hr e => rw [(root_eq e).2.2.2.2.2.1] at h2; exact absurd h2 (Nat.not_lt.2 h1)
  case new1 xs hl r h1' al d eh hr e => rw [(root_eq e).2.2.2.2.2.1] at h2; exact absurd h2 (Nat.not_lt.2 h1)
  case immut r d e => rw [(root_eq e).2.2.2.2.2.1] at h2; exact absurd h2 (Nat.not_lt.2 h1)
  case gCasWin x b og fs y v hd hb =>
    have h2 : g < a.ng + 1 := h2
    have : g = a.ng := by omega
    subst this
    refine ⟨.data v, ?_⟩
    show a.b.sk.node (upd a.gOf a.ng x a.ng) = _
    rw [upd_same]
    exact getData_some hd
  all_goals exact absurd h2 (Nat.not_lt.2 h1)

theorem task_ng {a a' : Arena α} {t : ATask} {ts : List ATask} (e : ataskStep a t = .ok (a', ts)) : a'.ng = a.ng := by
  cases t with
  | slice d g => obtain ⟨⟨h', ts'⟩, e1, e2⟩ := bind_ok e; cases pure_ok e2; rfl
  | base t => obtain ⟨⟨h', ts'⟩, e1, e2⟩ := bind_ok e; cases pure_ok e2; rfl
  | guard g =>
    simp only [ataskStep, Arena.dropG] at e
    repeat' split at e
    all_goals first
      | (cases e; done)
      | (cases e; rfl)

theorem GU.step {b : Bool} {i : Nat} (G : GU c.a) (A : c.IA b) (e : c.step i = .ok c') : GU c'.a := by
  obtain ⟨c3, e3, A', ge⟩ := A.step (i := i)
  rw [e] at e3; cases e3
  have new : ∀ {g v}, c'.a.guard g = some v → c.a.ng ≤ g → ∃ n, c'.a.b.sk.node (c'.a.gOf g) = some n := by
    intro g v hg hl
    have hlt := A'.gf.gf.lt g v hg
    cases CStep.of e with
    | none h => omega
    | task cl t ts a' new hi ht e1 =>
      have h2 : g < a'.ng := hlt
      rw [task_ng e1] at h2
      omega
    | pc cl a' n hi ht e1 => exact newGuard_pc (PStep.of e1) hl hlt
  have old : ∀ {g v}, c'.a.guard g = some v → g < c.a.ng → ∃ v, c.a.guard g = some v := by
    intro g v hg hl
    have h1 := A'.bi.gS hg
    refine (Arc.GI.live A.bi.gi g).1 (Nat.pos_of_ne_zero fun h => h1 (ge.dead g hl h))
  intro g h v w hg hh he
  cases hn : c'.a.b.sk.node (c'.a.gOf g) with
  | some n =>
    have h1 := A'.gf.gf.uniq g v n hg hn
    rw [he] at hn h1
    have h2 := A'.gf.gf.uniq h w n hh hn
    rw [h1] at h2
    exact Option.some.inj h2
  | none =>
    have lg : g < c.a.ng := by
      rcases Nat.lt_or_ge g c.a.ng with h | h
      · exact h
      · obtain ⟨n, h1⟩ := new hg h
        rw [hn] at h1; cases h1
    have lh : h < c.a.ng := by
      rcases Nat.lt_or_ge h c.a.ng with h1 | h1
      · exact h1
      · obtain ⟨n, h2⟩ := new hh h1
        rw [← he, hn] at h2; cases h2
    obtain ⟨v0, hv0⟩ := old hg lg
    obtain ⟨w0, hw0⟩ := old hh lh
    rw [ge.gOf g lg, ge.gOf h lh] at he
    exact G g h v0 w0 hv0 hw0 he

theorem Conf.PReach.GU (hP : PTame P) (h : Conf.PReach P zst c) : GU c.a := by
  induction h with
  | init => intro g h v w hg; cases hg
  | run h i e ih => exact ih.step (h.IA' hP) e
  | start h op hp e ih => rw [(Conf.start_T e).2]; exact ih
  | write h k en j x hk hw e ih =>
    rcases Conf.write_cases e with rfl | ⟨_, _, rfl⟩
    · exact ih
    · exact ih
  | panic h i e ih =>
    obtain ⟨cl, r, ts, ts', us, sl, p⟩ := Panicked.of (h.BI hP).heap e
    rw [p.eq]
    exact ih

/-! ## Counting -/

theorem Hist.count {k : Skel} (H : Hist k) {f : Nat} {β : Type} {l : List β} (node : β → Nat) (hn : l.Nodup)
    (hl : ∀ x ∈ l, node x < k.next ∧ k.kind (node x) = .data ∧ (k.lab (node x)).fam = f) (hi : ∀ x ∈ l, ∀ y ∈ l, node x = node y → x = y) :
    l.length ≤ most (k.fams f).rng.len := by
  have h1 := proper_count (r := (k.fams f).rng) (l := l.map fun x => (k.lab (node x)).path) ?_ ?_
  · simpa using h1
  · refine List.pairwise_map.2 ?_
    refine List.Pairwise.imp_of_mem ?_ hn
    intro x y hx hy hne he
    obtain ⟨x1, x2, x3⟩ := hl x hx
    obtain ⟨y1, y2, y3⟩ := hl y hy
    refine hne (hi x hx y hy (H.uniq _ _ x1 y1 x2 y2 ?_))
    rcases hlx : k.lab (node x) with ⟨f1, p1⟩
    rcases hly : k.lab (node y) with ⟨f2, p2⟩
    rw [hlx] at x3 he; rw [hly] at y3 he
    simp only at x3 y3 he
    rw [x3, y3, he]
  · intro p hp
    obtain ⟨x, hx, rfl⟩ := List.mem_map.1 hp
    obtain ⟨x1, x2, x3⟩ := hl x hx
    have := H.proper _ x1 x2
    rwa [x3] at this

theorem Chain.depth {a : Arena α} (Q : ParOK a) : ∀ {fs : List GFrame} {x y : Nat}, Chain a x fs y → fs.length ≤ (a.b.sk.lab y).path.length := by
  suffices h : ∀ {fs : List GFrame} {x y : Nat}, Chain a x fs y → fs.length + (a.b.sk.lab x).path.length ≤ (a.b.sk.lab y).path.length from
    fun {_ _ _} h1 => Nat.le_trans (Nat.le_add_right ..) (h h1)
  intro fs
  induction fs with
  | nil => rintro x y ⟨rfl, _⟩; simp
  | cons f fs ih =>
    rintro x y ⟨rfl, h2, h3⟩
    have h4 := ih h3
    obtain ⟨_, _, _, s, h5⟩ := Q.par _ _ h2
    rw [h5] at h4
    simp only [Lab.child, List.length_cons] at h4 ⊢
    omega

theorem Above.depth {a : Arena α} (Q : ParOK a) (G : GF a) {g n g' : Nat} (h : Above a g n g') : n ≤ (a.b.sk.lab (a.gOf g)).path.length := by
  induction h with
  | self g => exact Nat.zero_le _
  | up h hp hn ih =>
    obtain ⟨_, _, _, s, h5⟩ := Q.par _ _ (G.link1 _ _ _ h hp).2
    rw [h5]
    simp only [Lab.child, List.length_cons]
    omega

theorem TN.le {k : Skel} {m : Nat} (hm : ∀ x, x < k.next → k.kind x = .data → (k.lab x).path.length ≤ m) {ts : List ATask} (h : TN k ts) : nest ts ≤ m + 1 := by
  induction ts with
  | nil => exact Nat.zero_le _
  | cons t ts ih =>
    have h1 := ih h.2
    by_cases ht : t.isReg = true
    · have : ∃ r, t = .base (.dropReg r) := by
        cases t with
        | base t => cases t with
          | dropReg r => exact ⟨r, rfl⟩
          | _ => cases ht
        | _ => cases ht
      obtain ⟨r, rfl⟩ := this
      have h2 : nest ts ≤ m := by
        rcases h.1 with h | ⟨x, a1, a2, a3⟩
        · omega
        · exact Nat.le_trans a3 (hm x a1 a2)
      simp only [nest, List.countP_cons, ht, ↓reduceIte] at h2 ⊢
      omega
    · simp only [nest, List.countP_cons, ht] at h1 ⊢
      simpa using h1

theorem FN.le {k : Skel} {m : Nat} (hm : ∀ x, x < k.next → k.kind x = .data → (k.lab x).path.length ≤ m) {ts : List Fg} (h : FN k ts) :
    ts.countP Fg.isVal ≤ m + 1 := by
  induction ts with
  | nil => exact Nat.zero_le _
  | cons t ts ih =>
    have h1 := ih h.2
    cases t with
    | kid x => simpa [Fg.isVal] using h1
    | val r =>
      have h2 : ts.countP Fg.isVal ≤ m := by
        rcases h.1 with h | ⟨x, a1, a2, a3⟩
        · omega
        · exact Nat.le_trans a3 (hm x a1 a2)
      simp only [List.countP_cons, Fg.isVal, ↓reduceIte]
      omega

theorem Conf.RI.panic {i : Nat} (R : c.RI) (B : c.BI) (e : c.panic i = some c') : c'.RI := by
  obtain ⟨cl, r, ts, ts', us, sl, p⟩ := Panicked.of B.heap e
  have h1 : c'.a.b.sk = c.a.b.sk := by rw [p.eq]; rfl
  refine ⟨by rw [h1]; exact R.fams, fun k en hk => ?_, fun j clj hj => ?_⟩
  · rw [p.get] at hk; rw [h1]; exact R.ents k en hk
  · rw [h1]
    rcases p.calls hj with ⟨rfl, rfl⟩ | ⟨_, hj⟩
    · trivial
    · exact R.calls j clj hj

theorem Conf.RI.write {en : Ent} {j : Nat} {x : α} (R : c.RI) (e : c.write en j x = .ok c') : c'.RI := by
  rcases Conf.write_cases e with rfl | ⟨_, _, rfl⟩
  · exact R
  · exact ⟨R.fams, R.ents, R.calls⟩

theorem Conf.PReach.RI (hP : PTame P) (h : Conf.PReach P zst c) : c.RI := by
  induction h with
  | init => exact ⟨fun f hf => absurd hf (Nat.not_lt_zero _), fun k e hk => (by cases hk), fun i cl hi => (by cases hi)⟩
  | run h i e ih => exact ih.step (h.BI hP) e
  | start h op hp e ih => exact ih.start e
  | write h k en j x hk hw e ih => exact ih.write e
  | panic h i e ih => exact ih.panic (h.BI hP) e

end Verif.Arc

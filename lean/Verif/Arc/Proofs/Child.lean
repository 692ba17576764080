import Verif.Arc.Proofs.Final
/-!
# What `clone_left` and `clone_right` lead to

All calls of `clone_left` on the same handle lead to the same node of the tree.
-/

namespace Verif.Arc
open Verif.Spec (Side Slot Family Rng End)
open Verif.Rc
variable {α : Type}

/-- The place in the tree of side `s` of `d`. -/
def tgtL (a : Arena α) (d : Nat) (s : Side) : Lab :=
  match a.b.sk.node d with
  | some (.data v) => if sameNode v.len s then a.b.sk.lab d else (a.b.sk.lab d).child s
  | _ => a.b.sk.lab d

/-- The data a call has decided for. -/
def goal : Pc α → Option Nat
  | .csInc c | .csLose c _ => some c
  | .gLoad _ _ y | .gTry _ _ _ _ y | .gPar _ _ _ y | .gCas _ _ _ _ y | .gRet _ _ y => some y
  | _ => none

/-- The points of `clone_left`/`clone_right`. -/
def csPc (s : Side) : Pc α → Prop
  | .wait _ _ t | .cs _ t | .csNew _ t | .csCas _ t _ => t = s
  | .csInc _ | .csLose _ _ | .gLoad _ _ _ | .gTry _ _ _ _ _ | .gPar _ _ _ _ | .gCas _ _ _ _ _ | .gRet _ _ _ | .done _ => True
  | _ => False

/-- The place in the tree the call has decided for. -/
def Comm (c : Conf α) (cl : Call α) (l : Lab) : Prop :=
  (∃ y, goal cl.pc = some y ∧ c.a.b.sk.lab y = l) ∨
  ∃ m d g b, m ∈ cl.out ∧ c.get m = some ⟨.strong d g, b⟩ ∧ c.a.b.sk.lab d = l

structure Conf.CI (c : Conf α) : Prop where
  out : ∀ (i : Nat) cl, c.calls[i]? = some cl → ∀ m ∈ cl.out, m < c.hs.length
  bor : ∀ (i : Nat) cl s k, c.calls[i]? = some cl → cl.op = .cloneSide s k →
    cl.borrow = some k ∧ csPc s cl.pc ∧ k < c.hs.length
  one : ∀ (i : Nat) cl s k d g b l, c.calls[i]? = some cl → cl.op = .cloneSide s k → c.get k = some ⟨.strong d g, b⟩ → Comm c cl l →
    l = tgtL c.a d s
  two : ∀ (i j : Nat) cl cl' s k l l', c.calls[i]? = some cl → c.calls[j]? = some cl' → cl.op = .cloneSide s k →
    cl'.op = .cloneSide s k → Comm c cl l → Comm c cl' l' → l = l'

section
variable {c c' : Conf α}

theorem goal_lt {a : Arena α} {T : List AT} {bh : Option Handle} {pc : Pc α} {y : Nat} (I : HInv a.b T) (hp : pcOK a bh pc) (h : goal pc = some y) :
    y < a.b.sk.next := by
  have kid : ∀ {c : Nat}, KidOf a bh c → c < a.b.sk.next := by
    rintro c ⟨d, g, s, v, _, hv, hk⟩
    obtain ⟨_, _, w, hw⟩ := I.good.shape.toDShape.dataKid d v s c hv hk
    exact I.base.lt hw
  cases pc <;> simp only [goal, Option.some.injEq, reduceCtorEq] at h <;> subst h
  · exact kid hp
  · exact kid hp
  · exact (Chain.endp hp).2
  · exact (Chain.endp hp).2
  · exact (Chain.endp hp).2
  · exact (Chain.endp hp).2
  · obtain ⟨x, hp⟩ := hp; exact (Chain.endp hp).2

theorem tgtL_evo {a a' : Arena α} {d : Nat} {v v' : DataV} (e : AEvo a a') (B : Base a.b.sk) (hd : a.b.sk.node d = some (.data v))
    (hd' : a'.b.sk.node d = some (.data v')) (s : Side) : tgtL a' d s = tgtL a d s := by
  obtain ⟨w, h1, _, _, h2, _⟩ := e.evo.data d v _ hd hd'
  cases h1
  simp only [tgtL, hd, hd', h2, e.evo.lab d (B.lt hd)]

/-- What a call decides for in a step. -/
theorem goal_pc {a a' : Arena α} {T : List AT} {bh : Option Handle} {pc : Pc α} {n : Next α} {s : Side} {y : Nat}
    (I : HInv a.b T) (hp : pcOK a bh pc) (hs : csPc s pc) (e : PStep a pc a' n) (h : goal n.pc = some y) :
    goal pc = some y ∨ ∃ d g, bh = some (.strong d g) ∧ a'.b.sk.lab y = tgtL a d s := by
  have tg : ∀ {d v}, a.b.getData d = .ok v → tgtL a d s = if sameNode v.len s then a.b.sk.lab d else (a.b.sk.lab d).child s := by
    intro d v h; simp only [tgtL, getData_some h]
  cases e <;> simp only [goal, Option.some.injEq, reduceCtorEq] at h
  case csSame d t v h1 hd hsn e =>
    obtain ⟨g, hp⟩ := hp; cases hs; subst h
    refine .inr ⟨_, g, hp, ?_⟩
    rw [tg hd, if_pos hsn]
    obtain ⟨_, rfl⟩ := incS_some e; rfl
  case csKid d t v c hd hsn hk =>
    obtain ⟨g, hp⟩ := hp; cases hs; subst h
    refine .inr ⟨d, g, hp, ?_⟩
    rw [tg hd, if_neg hsn]
    exact (I.good.shape.toDShape.dataKid d v _ _ (getData_some hd) hk).2.1
  case csWin d t r v h1 c h2 hd hk e1 e2 =>
    obtain ⟨g, v', hp, hv, hsn, hr⟩ := hp; cases hs; subst h
    rw [getData_some hd] at hv; cases hv
    refine .inr ⟨d, g, hp, ?_⟩
    rw [tg hd, if_neg hsn]
    obtain ⟨_, rfl⟩ := incS_some e2
    cases e1
    exact upd_same _ _ _
  case csLost d t r v c hd hk =>
    obtain ⟨g, v', hp, hv, hsn, hr⟩ := hp; cases hs; subst h
    rw [getData_some hd] at hv; cases hv
    refine .inr ⟨d, g, hp, ?_⟩
    rw [tg hd, if_neg hsn]
    exact (I.good.shape.toDShape.dataKid d v _ _ (getData_some hd) hk).2.1
  all_goals first
    | exact False.elim hs
    | exact .inl (by simp [goal, h])

/-- Handles a call returns. -/
theorem push_goal {a a' : Arena α} {pc : Pc α} {n : Next α} {s : Side} {d g : Nat} {b : Bool} (hs : csPc s pc) (e : PStep a pc a' n)
    (h : ⟨.strong d g, b⟩ ∈ n.push) : goal pc = some d ∧ a' = a := by
  cases e <;> first
    | exact False.elim hs
    | (simp only [List.not_mem_nil] at h; done)
    | (simp only [List.mem_singleton, Ent.mk.injEq, Handle.strong.injEq] at h
       obtain ⟨⟨rfl, rfl⟩, rfl⟩ := h
       exact ⟨rfl, rfl⟩)

theorem csPc_step {a a' : Arena α} {pc : Pc α} {n : Next α} {s : Side} (hs : csPc s pc) (e : PStep a pc a' n) : csPc s n.pc := by
  cases e <;> first | exact hs | trivial | exact False.elim hs

/-- Old calls after a step. -/
theorem Comm.old {i j : Nat} {cl' clj : Call α} {a' : Arena α} {new : List Ent} {l : Lab} (B : c.BI) (C : c.CI) (ev : AEvo c.a a')
    (hj : c.calls[j]? = some clj) (h : Comm (c.after i a' cl' new) clj l) : Comm c clj l := by
  rcases h with ⟨y, h1, h2⟩ | ⟨m, d, g, b, h1, h2, h3⟩
  · have hy := goal_lt B.heap (B.calls j clj hj).1 h1
    exact .inl ⟨y, h1, by rw [← ev.evo.lab y hy]; exact h2⟩
  · rcases after_get h2 with h2 | ⟨h2, _⟩
    · have hd := B.heap.lt (ref_mem_aS (Conf.get_tok' h2 (t := .ref d) (by simp [entT])))
      exact .inr ⟨m, d, g, b, h1, h2, by rw [← ev.evo.lab d hd]; exact h3⟩
    · exact absurd (C.out j clj hj m h1) (by omega)

theorem Conf.CI.init (zst : Bool) : (Conf.init (α := α) zst).CI where
  out := by intro i cl hi; simp [Conf.init] at hi
  bor := by intro i cl s k hi; simp [Conf.init] at hi
  one := by intro i cl s k d g b l hi; simp [Conf.init] at hi
  two := by intro i j cl cl' s k l l' hi; simp [Conf.init] at hi

theorem Conf.CI.step {i : Nat} (C : c.CI) (B : c.BI) (B' : c'.BI) (ev : AEvo c.a c'.a) (h : c.step i = .ok c') : c'.CI := by
  -- what a call is committed to, it was committed to before, or it is the right place
  have key : ∀ (j : Nat) clj s k l, c'.calls[j]? = some clj → clj.op = .cloneSide s k → Comm c' clj l →
      ∃ clj0, c.calls[j]? = some clj0 ∧ clj0.op = .cloneSide s k ∧
        (Comm c clj0 l ∨ ∃ d g b, c.get k = some ⟨.strong d g, b⟩ ∧ l = tgtL c.a d s) := by
    intro j clj s k l hj ho hc
    cases CStep.of h with
    | none _ => exact ⟨clj, hj, ho, .inl hc⟩
    | task cl t ts a' new hi ht e =>
      rcases after_calls hi hj with ⟨rfl, rfl⟩ | ⟨_, hj⟩
      · refine ⟨cl, hi, ho, .inl (Comm.old B C ev hi (i := j) (cl' := { cl with tasks := new ++ ts }) (new := []) ?_)⟩
        rcases hc with hc | ⟨m, d, g, b, h1, h2⟩
        · exact .inl hc
        · exact .inr ⟨m, d, g, b, by simpa using h1, h2⟩
      · exact ⟨clj, hj, ho, .inl (Comm.old B C ev hj hc)⟩
    | pc cl a' n hi ht e2 =>
      rcases after_calls hi hj with ⟨rfl, rfl⟩ | ⟨_, hj⟩
      · refine ⟨cl, hi, ho, ?_⟩
        obtain ⟨hb, hs, _⟩ := C.bor j cl s k hi ho
        have hp := (B.calls j cl hi).1
        have I : HInv c.a.b c.T := B.heap
        rcases hc with ⟨y, h1, h2⟩ | ⟨m, d, g, b, h1, h2, h3⟩
        · rcases goal_pc I hp hs (.of e2) h1 with h3 | ⟨d, g, h3, h4⟩
          · refine .inl (.inl ⟨y, h3, ?_⟩)
            rw [← ev.evo.lab y (goal_lt I hp h3)]; exact h2
          · obtain ⟨k', b, h5, h6⟩ := Conf.bh_get h3
            rw [hb] at h5; cases h5
            exact .inr ⟨d, g, b, h6, by rw [← h2]; exact h4⟩
        · rcases after_get h2 with h4 | ⟨h4, h5⟩
          · have hd := B.heap.lt (ref_mem_aS (Conf.get_tok' h4 (t := .ref d) (by simp [entT])))
            have hm := c.get_lt h4
            refine .inl (.inr ⟨m, d, g, b, ?_, h4, by rw [← ev.evo.lab d hd]; exact h3⟩)
            simp only [List.mem_append, List.mem_range'_1] at h1
            rcases h1 with h1 | h1
            · exact h1
            · omega
          · obtain ⟨h6, h7⟩ := push_goal hs (.of e2) h5
            refine .inl (.inl ⟨d, h6, ?_⟩)
            rw [← h3]
            show c.a.b.sk.lab d = a'.b.sk.lab d
            rw [h7]
      · exact ⟨clj, hj, ho, .inl (Comm.old B C ev hj hc)⟩
  have tg : ∀ k d g b s, c.get k = some ⟨.strong d g, b⟩ → c'.get k = some ⟨.strong d g, b⟩ ∧ tgtL c'.a d s = tgtL c.a d s := by
    intro k d g b s hk
    have hk' : c'.get k = some ⟨.strong d g, b⟩ := by
      cases CStep.of h with
      | none _ => exact hk
      | task => exact after_get_old hk
      | pc => exact after_get_old hk
    obtain ⟨v, hv⟩ := B.heap.data (ref_mem_aS (Conf.get_tok' hk (t := .ref d) (by simp [entT]))) (B.ents k _ hk)
    obtain ⟨v', hv'⟩ := B'.heap.data (ref_mem_aS (Conf.get_tok' hk' (t := .ref d) (by simp [entT]))) (B'.ents k _ hk')
    exact ⟨hk', tgtL_evo ev B.heap.base hv hv' s⟩
  have hlen : c.hs.length ≤ c'.hs.length := by
    cases CStep.of h with
    | none _ => exact Nat.le_refl _
    | task => simp [Conf.after]
    | pc => simp [Conf.after]
  refine ⟨fun j clj hj m hm => ?_, fun j clj s k hj ho => ?_, fun j clj s k d g b l hj ho hk hc => ?_, fun j j' clj clj' s k l l' hj hj' ho ho' hc hc' => ?_⟩
  · cases CStep.of h with
    | none _ => exact C.out j clj hj m hm
    | task cl t ts a' new hi ht e =>
      rcases after_calls hi hj with ⟨rfl, rfl⟩ | ⟨_, hj⟩
      · exact Nat.lt_of_lt_of_le (C.out j cl hi m (by simpa using hm)) hlen
      · exact Nat.lt_of_lt_of_le (C.out j clj hj m hm) hlen
    | pc cl a' n hi ht e2 =>
      rcases after_calls hi hj with ⟨rfl, rfl⟩ | ⟨_, hj⟩
      · simp only [List.mem_append, List.mem_range'_1] at hm
        rcases hm with hm | hm
        · exact Nat.lt_of_lt_of_le (C.out j cl hi m hm) hlen
        · simp only [Conf.after, List.length_append, List.length_map]; omega
      · exact Nat.lt_of_lt_of_le (C.out j clj hj m hm) hlen
  · cases CStep.of h with
    | none _ => exact C.bor j clj s k hj ho
    | task cl t ts a' new hi ht e =>
      rcases after_calls hi hj with ⟨rfl, rfl⟩ | ⟨_, hj⟩
      · obtain ⟨h1, h2, h3⟩ := C.bor j cl s k hi ho
        exact ⟨h1, h2, Nat.lt_of_lt_of_le h3 hlen⟩
      · obtain ⟨h1, h2, h3⟩ := C.bor j clj s k hj ho
        exact ⟨h1, h2, Nat.lt_of_lt_of_le h3 hlen⟩
    | pc cl a' n hi ht e2 =>
      rcases after_calls hi hj with ⟨rfl, rfl⟩ | ⟨_, hj⟩
      · obtain ⟨h1, h2, h3⟩ := C.bor j cl s k hi ho
        exact ⟨h1, csPc_step h2 (.of e2), Nat.lt_of_lt_of_le h3 hlen⟩
      · obtain ⟨h1, h2, h3⟩ := C.bor j clj s k hj ho
        exact ⟨h1, h2, Nat.lt_of_lt_of_le h3 hlen⟩
  · obtain ⟨clj0, h1, h2, h3⟩ := key j clj s k l hj ho hc
    -- a borrowed or held handle is there before
    have hk0 : ∃ g b, c.get k = some ⟨.strong d g, b⟩ := by
      obtain ⟨hb, _, hl⟩ := C.bor j clj0 s k h1 h2
      cases CStep.of h with
      | none _ => exact ⟨g, b, hk⟩
      | task =>
        rcases after_get hk with h | ⟨_, h⟩
        · exact ⟨g, b, h⟩
        · cases h
      | pc cl a' n hi ht e2 =>
        rcases after_get hk with h | ⟨h, _⟩
        · exact ⟨g, b, h⟩
        · omega
    obtain ⟨g0, b0, hk0⟩ := hk0
    rw [(tg k d g0 b0 s hk0).2]
    rcases h3 with h3 | ⟨d2, g2, b2, h4, h5⟩
    · exact C.one j clj0 s k d g0 b0 l h1 h2 hk0 h3
    · rw [hk0] at h4; cases h4; exact h5
  · obtain ⟨cl0, h1, h2, h3⟩ := key j clj s k l hj ho hc
    obtain ⟨cl0', h1', h2', h3'⟩ := key j' clj' s k l' hj' ho' hc'
    rcases h3 with h3 | ⟨d, g, b, h4, h5⟩
    · rcases h3' with h3' | ⟨d', g', b', h4', h5'⟩
      · exact C.two j j' cl0 cl0' s k l l' h1 h1' h2 h2' h3 h3'
      · rw [h5']; exact C.one j cl0 s k d' g' b' l h1 h2 h4' h3
    · rcases h3' with h3' | ⟨d', g', b', h4', h5'⟩
      · rw [h5]; exact (C.one j' cl0' s k d g b l' h1' h2' h4 h3').symm
      · rw [h4] at h4'; cases h4'; rw [h5, h5']

theorem Conf.CI.start {op : Op α} (C : c.CI) (h : c.start op = some c') : c'.CI := by
  have ha : c'.a = c.a := (Conf.start_T h).2
  have hS := SStep.of h
  have get : ∀ {k d g b}, c'.get k = some ⟨.strong d g, b⟩ → ∃ b', c.get k = some ⟨.strong d g, b'⟩ := by
    intro k d g b hk
    rcases start_get hS hk with h1 | ⟨_, _, h1⟩ | ⟨d', g', _, h1, h2⟩
    · exact ⟨b, h1⟩
    · cases h1
    · cases h2; exact ⟨true, h1⟩
  have hlen : c.hs.length ≤ c'.hs.length := by
    cases hS <;> simp [Conf.plain, Conf.shared, Conf.taking]
  have old : ∀ {cl l}, Comm c' cl l → Comm c cl l := by
    rintro cl l (⟨y, h1, h2⟩ | ⟨m, d, g, b, h1, h2, h3⟩)
    · exact .inl ⟨y, h1, ha ▸ h2⟩
    · obtain ⟨b', h4⟩ := get h2
      exact .inr ⟨m, d, g, b', h1, h4, ha ▸ h3⟩
  have new : ∀ {j : Nat} {cl : Call α} {s : Side} {k : Nat}, c'.calls[j]? = some cl → cl.op = .cloneSide s k →
      c.calls[j]? = some cl ∨ (cl.out = [] ∧ cl.borrow = some k ∧ (∃ d g, cl.pc = .wait d g s) ∧ k < c.hs.length) := by
    intro j cl s k hj ho
    rcases start_call hS hj with h1 | ⟨h0, h1, h2, _⟩
    · exact .inl h1
    · rw [ho] at h1; subst h1
      cases hS with
      | cloneSide s k d g hk =>
        rcases shared_calls hj with h1 | ⟨_, rfl⟩
        · exact .inl h1
        · exact .inr ⟨rfl, rfl, ⟨d, g, rfl⟩, c.get_lt hk⟩
  have ncomm : ∀ {cl : Call α} {d g s l}, cl.out = [] → cl.pc = .wait d g s → ¬ Comm c' cl l := by
    rintro cl d g s l h1 h2 (⟨y, h3, _⟩ | ⟨m, _, _, _, h3, _⟩)
    · rw [h2] at h3; cases h3
    · rw [h1] at h3; cases h3
  refine ⟨fun j clj hj m hm => ?_, fun j clj s k hj ho => ?_, fun j clj s k d g b l hj ho hk hc => ?_, fun j j' clj clj' s k l l' hj hj' ho ho' hc hc' => ?_⟩
  · rcases start_call hS hj with h1 | ⟨_, _, h2, _⟩
    · exact Nat.lt_of_lt_of_le (C.out j clj h1 m hm) hlen
    · rw [h2] at hm; cases hm
  · rcases new hj ho with h1 | ⟨_, h2, ⟨d, g, h3⟩, h4⟩
    · obtain ⟨h1, h2, h3⟩ := C.bor j clj s k h1 ho
      exact ⟨h1, h2, Nat.lt_of_lt_of_le h3 hlen⟩
    · exact ⟨h2, by simp [h3, csPc], Nat.lt_of_lt_of_le h4 hlen⟩
  · rcases new hj ho with h1 | ⟨h2, _, ⟨d, g, h3⟩, _⟩
    · obtain ⟨b', hk⟩ := get hk
      rw [ha]; exact C.one j clj s k d g b' l h1 ho hk (old hc)
    · exact absurd hc (ncomm h2 h3)
  · rcases new hj ho with h1 | ⟨h2, _, ⟨d, g, h3⟩, _⟩
    · rcases new hj' ho' with h1' | ⟨h2', _, ⟨d, g, h3'⟩, _⟩
      · exact C.two j j' clj clj' s k l l' h1 h1' ho ho' (old hc) (old hc')
      · exact absurd hc' (ncomm h2' h3')
    · exact absurd hc (ncomm h2 h3)

theorem Conf.CI.write {en : Ent} {j : Nat} {x : α} (C : c.CI) (e : c.write en j x = .ok c') : c'.CI := by
  rcases Conf.write_eq e with rfl | ⟨b, off, len, h', _, _, e2, rfl⟩
  · exact C
  · have hsk : h'.sk = c.a.b.sk := by
      simp only [writeItem] at e2
      split at e2
      · cases e2
      · split at e2 <;> cases e2
        rfl
    have hc : ∀ {cl : Call α} {l}, Comm { c with a := c.a.withB h' } cl l → Comm c cl l := by
      rintro cl l (⟨y, h1, h2⟩ | ⟨m, d, g, b, h1, h2, h3⟩)
      · exact .inl ⟨y, h1, by rw [← h2, ← hsk]; rfl⟩
      · exact .inr ⟨m, d, g, b, h1, h2, by rw [← h3, ← hsk]; rfl⟩
    have ht : ∀ d s, tgtL (c.a.withB h') d s = tgtL c.a d s := by
      intro d s; simp only [tgtL, Arena.withB, hsk]
    exact ⟨C.out, C.bor, fun i cl s k d g b l hi ho hk hl => (C.one i cl s k d g b l hi ho hk (hc hl)).trans (ht d s).symm,
      fun i j cl cl' s k l l' h1 h2 h3 h4 h5 h6 => C.two i j cl cl' s k l l' h1 h2 h3 h4 (hc h5) (hc h6)⟩

theorem Conf.Reach.CI {P : Rules α} {zst : Bool} (hP : Tame P) (h : Conf.Reach P zst c) : c.CI := by
  induction h with
  | init => exact .init zst
  | @run c1 c2 h i e ih =>
    obtain ⟨c3, h1, h2⟩ := Conf.Reach.step hP h i
    rw [e] at h1; cases h1
    exact ih.step (h.BI hP) ((Conf.Reach.run h i e).BI hP) h2.evo e
  | start h op hp e ih => exact ih.start e
  | write h k en j x hk hw e ih => exact ih.write e

/-! ## The loser of the race drops no items -/

/-- This drop has no effect on items, nor do those that follow. -/
def NoItems (k : Skel) (t : ATask) : Prop :=
  (∃ r, t = .base (.dropReg r) ∧ r.len = 0 ∧ ∀ al, r.alloc = some al → al < k.next ∧ k.kind al = .alloc) ∨
  (∃ al, t = .base (.dropS al) ∧ al < k.next ∧ k.kind al = .alloc)

theorem NoItems.evo {k k' : Skel} {t : ATask} (e : Evo k k') (h : NoItems k t) : NoItems k' t := by
  have key : ∀ al, al < k.next ∧ k.kind al = .alloc → al < k'.next ∧ k'.kind al = .alloc := fun al ⟨h1, h2⟩ =>
    ⟨Nat.lt_of_lt_of_le h1 e.next, by rw [e.kind al h1]; exact h2⟩
  rcases h with ⟨r, h1, h2, h3⟩ | ⟨al, h1, h2⟩
  · exact .inl ⟨r, h1, h2, fun al ha => key al (h3 al ha)⟩
  · exact .inr ⟨al, h1, key al h2⟩

theorem NoItems.step {a a' : Arena α} {t : ATask} {ts : List ATask} (B : Base a.b.sk) (h : NoItems a.b.sk t)
    (e : ataskStep a t = .ok (a', ts)) : a'.b.slot = a.b.slot ∧ ∀ u ∈ ts, NoItems a.b.sk u := by
  rcases h with ⟨r, rfl, h2, h3⟩ | ⟨al, rfl, h2, h3⟩
  · simp only [ataskStep, taskStep, h2, if_true] at e
    cases e
    refine ⟨rfl, fun u hu => ?_⟩
    simp only [List.mem_map, Option.mem_toList] at hu
    obtain ⟨_, ⟨al, h4, rfl⟩, rfl⟩ := hu
    exact .inr ⟨al, rfl, h3 al h4⟩
  · simp only [ataskStep, taskStep] at e
    obtain ⟨⟨h1, ts1⟩, e1, e2⟩ := bind_ok e
    cases pure_ok e2
    simp only [dropStrong] at e1
    split at e1
    · cases e1
    · split at e1
      · cases e1; exact ⟨rfl, by simp⟩
      · split at e1
        · cases e1
        · next v hv => rw [B.kinds _ _ hv] at h3; cases h3
        · next v hv => rw [B.kinds _ _ hv] at h3; cases h3
        · next v hv => rw [B.kinds _ _ hv] at h3; cases h3
        · split at e1
          · cases e1; exact ⟨rfl, by simp⟩
          · split at e1
            · cases e1; exact ⟨rfl, by simp⟩
            · cases e1

def Conf.LI (c : Conf α) : Prop :=
  ∀ (i : Nat) cl, c.calls[i]? = some cl → ∀ x fs y, cl.pc = .gLoad x fs y → ∀ t ∈ cl.tasks, NoItems c.a.b.sk t

theorem load_tasks {a a' : Arena α} {pc : Pc α} {n : Next α} {x y : Nat} {fs : List GFrame} (e : PStep a pc a' n) (h : n.pc = .gLoad x fs y) :
    n.tasks = [] ∨ ∃ c r, pc = .csLose c r ∧ n.tasks = [.base (.dropReg { r with len := 0 })] := by
  cases e <;> first | exact .inl rfl | exact .inr ⟨_, _, rfl, rfl⟩ | cases h

theorem Conf.Reach.LI {P : Rules α} {zst : Bool} (hP : Tame P) (h : Conf.Reach P zst c) : c.LI := by
  induction h with
  | init => intro i cl hi; simp [Conf.init] at hi
  | @run c1 c2 h i e ih =>
    obtain ⟨c3, h1, h2⟩ := Conf.Reach.step hP h i
    rw [e] at h1; cases h1
    have B := h.BI hP
    have ev := h2.evo.evo
    intro j clj hj x fs y hp t ht
    cases CStep.of e with
    | none _ => exact ih j clj hj x fs y hp t ht
    | task cl t0 ts a' new hi ht0 e2 =>
      rcases after_calls hi hj with ⟨rfl, rfl⟩ | ⟨_, hj⟩
      · refine .evo ev ?_
        rcases List.mem_append.1 ht with ht | ht
        · exact ((ih j cl hi x fs y hp t0 (by rw [ht0]; exact List.mem_cons_self ..)).step B.heap.base e2).2 t ht
        · exact ih j cl hi x fs y hp t (by rw [ht0]; exact List.mem_cons_of_mem _ ht)
      · exact (ih j clj hj x fs y hp t ht).evo ev
    | pc cl a' n hi ht0 e2 =>
      rcases after_calls hi hj with ⟨rfl, rfl⟩ | ⟨_, hj⟩
      · rcases load_tasks (.of e2) hp with h3 | ⟨ch, r, h3, h4⟩
        · exact absurd ht (by simp [h3])
        · refine .evo ev ?_
          simp only [h4, List.mem_singleton] at ht
          subst ht
          refine .inl ⟨_, rfl, rfl, fun al hal => ?_⟩
          have hr : AT.reg (bare r) ∈ c1.T := by
            refine (Conf.T_perm hi).mem_iff.2 ?_
            simp [callT, pcT, h3]
          have := (B.heap.regs _ hr).1 al hal
          exact ⟨B.heap.base.lt this, B.heap.base.kinds _ _ this⟩
      · exact (ih j clj hj x fs y hp t ht).evo ev
  | start h op hp e ih =>
    intro j clj hj x fs y hp t ht
    rw [(Conf.start_T e).2]
    rcases start_call (.of e) hj with h1 | ⟨_, _, _, h2⟩
    · exact ih j clj h1 x fs y hp t ht
    · rcases h2 with ⟨_, h, _⟩ | ⟨_, h, _⟩ | ⟨_, _, _, _, _, _, _, ⟨_, h⟩ | ⟨_, _, h⟩ | ⟨_, h⟩⟩ | ⟨_, _, _, _, _, _, _, _, ⟨_, h⟩ | ⟨_, h⟩⟩ |
        ⟨_, _, _, _, _, _, _, ⟨_, h, _⟩ | ⟨_, h, _⟩ | ⟨_, h, _⟩⟩ | ⟨_, _, _, _, _, _, _, _, _, h, _⟩ |
        ⟨_, _, _, _, _, _, _, ⟨_, h, _⟩ | ⟨_, _, h, _⟩ | ⟨_, _, h, _⟩ | ⟨_, _, _, h, _⟩ | ⟨_, h, _⟩⟩
      all_goals exact absurd (h.symm.trans hp) (by simp)
  | @write c1 c2 h k en j x hk hw e ih =>
    rcases Conf.write_eq e with rfl | ⟨b, off, len, h', _, _, e2, rfl⟩
    · exact ih
    · have hsk : h'.sk = c1.a.b.sk := by
        simp only [writeItem] at e2
        split at e2
        · cases e2
        · split at e2 <;> cases e2
          rfl
      intro i cl hi x fs y hp t ht
      show NoItems h'.sk t
      rw [hsk]; exact ih i cl hi x fs y hp t ht

end
end Verif.Arc

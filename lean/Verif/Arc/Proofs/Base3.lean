import Verif.Arc.Proofs.Base2
/-!
# What calls rely on, for the whole configuration
-/

namespace Verif.Arc
open Verif.Spec (Side Slot Family Rng End)
open Verif.Rc
variable {α : Type}

/-- The handle a call has borrowed. -/
def Call.bh (cl : Call α) (c : Conf α) : Option Handle := (cl.borrow.bind c.get).map (·.h)

structure Conf.BI (c : Conf α) : Prop where
  heap : HInv c.a.b c.T
  gi : c.GI
  par : ParOK c.a
  ents : ∀ k e, c.get k = some e → entOK c.a e.h
  calls : ∀ (i : Nat) cl, c.calls[i]? = some cl → pcOK c.a (cl.bh c) cl.pc ∧ ∀ t ∈ cl.tasks, aplain t

/-- Children that `forget_items` unwraps are not shared. -/
def Conf.FgSafe (c : Conf α) (i : Nat) : Prop := ∀ cl c0 todo g r acc, c.calls[i]? = some cl → cl.tasks = [] →
  cl.pc = .imFg (.kid c0 :: todo) g r acc → c.a.b.strong c0 = 1

section
variable {c c' : Conf α}

theorem Conf.get_mem {k : Nat} {e : Ent} (h : c.get k = some e) : some e ∈ c.hs := by
  simp only [Conf.get] at h
  cases h1 : c.hs[k]? with
  | none => rw [h1] at h; cases h
  | some o =>
    rw [h1] at h
    cases o with
    | none => cases h
    | some e' => cases h; exact List.mem_of_getElem? h1

theorem Conf.get_some {k : Nat} {e : Ent} (h : c.get k = some e) : c.hs[k]? = some (some e) := by
  simp only [Conf.get] at h
  cases h1 : c.hs[k]? with
  | none => rw [h1] at h; cases h
  | some o =>
    rw [h1] at h
    cases o with
    | none => cases h
    | some e' => cases h; rfl

theorem Conf.get_lt {k : Nat} {e : Ent} (h : c.get k = some e) : k < c.hs.length :=
  (List.getElem?_eq_some_iff.1 (c.get_some h)).1

theorem Conf.get_tok {k : Nat} {e : Ent} (h : c.get k = some e) (i : Nat) {t : AT} (ht : t ∈ entT e) : t ∈ c.rest i :=
  List.mem_append_left _ (List.mem_flatMap.2 ⟨some e, Conf.get_mem h, ht⟩)

theorem Conf.get_tok' {k : Nat} {e : Ent} (h : c.get k = some e) {t : AT} (ht : t ∈ entT e) : t ∈ c.T :=
  List.mem_append_left _ (List.mem_flatMap.2 ⟨some e, Conf.get_mem h, ht⟩)

theorem Conf.bh_get {cl : Call α} {h : Handle} (e : cl.bh c = some h) : ∃ k b, cl.borrow = some k ∧ c.get k = some ⟨h, b⟩ := by
  simp only [Call.bh] at e
  cases hb : cl.borrow with
  | none => rw [hb] at e; cases e
  | some k =>
    rw [hb] at e
    cases hg : c.get k with
    | none => simp [hg] at e
    | some en =>
      simp only [Option.bind_some, hg, Option.map_some, Option.some.injEq] at e
      exact ⟨k, en.mutb, rfl, by rw [← e]; exact hg⟩

theorem entT_mutb (h : Handle) (b : Bool) : entT ⟨h, b⟩ = entT ⟨h, false⟩ := rfl

/-- Handles that are there stay when new ones are added. -/
theorem Conf.get_append {c : Conf α} {a : Arena α} {cs : List (Call α)} {new : List (Option Ent)} {k : Nat} {e : Ent}
    (h : c.get k = some e) : Conf.get ⟨a, c.hs ++ new, cs⟩ k = some e := by
  simp only [Conf.get, List.getElem?_append_left (c.get_lt h)]
  exact h

theorem Conf.get_append_new {a : Arena α} {hs : List (Option Ent)} {cs : List (Call α)} {new : List Ent} {k : Nat} {e : Ent}
    (h : Conf.get ⟨a, hs ++ new.map some, cs⟩ k = some e) : Conf.get ⟨a, hs, cs⟩ k = some e ∨ hs.length ≤ k ∧ e ∈ new := by
  simp only [Conf.get] at h ⊢
  by_cases hk : k < hs.length
  · rw [List.getElem?_append_left hk] at h; exact .inl h
  · rw [List.getElem?_append_right (by omega), List.getElem?_map] at h
    cases hn : new[k - hs.length]? with
    | none => rw [hn] at h; cases h
    | some e' => rw [hn] at h; cases h; exact .inr ⟨by omega, List.mem_of_getElem? hn⟩

theorem Conf.rest_call {i j : Nat} {cl : Call α} (h : c.calls[j]? = some cl) (hij : j ≠ i) {t : AT} (ht : t ∈ callT cl) : t ∈ c.rest i := by
  refine List.mem_append_right _ (List.mem_flatMap.2 ⟨cl, ?_, ht⟩)
  rcases Nat.lt_or_gt_of_ne hij with hlt | hgt
  · refine List.mem_append_left _ (List.mem_of_getElem? (i := j) ?_)
    rw [List.getElem?_take_of_lt hlt]; exact h
  · refine List.mem_append_right _ (List.mem_of_getElem? (i := j - (i + 1)) ?_)
    rw [List.getElem?_drop]
    rw [show i + 1 + (j - (i + 1)) = j by omega]; exact h

theorem Conf.call_tok {i : Nat} {cl : Call α} (h : c.calls[i]? = some cl) {t : AT} (ht : t ∈ callT cl) : t ∈ c.T :=
  List.mem_append_right _ (List.mem_flatMap.2 ⟨cl, List.mem_of_getElem? h, ht⟩)

theorem BI_gd (h : c.GI) {g : Nat} (hg : .gd g ∈ c.T) : ∃ v, c.a.guard g = some v ∧ c.a.gS g ≠ 0 := by
  obtain ⟨v, hv⟩ := Arc.GI.held h (mem_aGd (x := g) hg (by simp))
  exact ⟨v, hv, Nat.ne_of_gt ((Arc.GI.live h g).2 ⟨v, hv⟩)⟩

theorem BI_wk (h : c.GI) {g : Nat} (hg : .wk g ∈ c.T) : c.a.gW g ≠ 0 := by
  have h1 := Arc.GI.weak h g
  have : g ∈ aWk c.T := List.mem_flatMap.2 ⟨_, hg, by simp⟩
  have := List.count_pos_iff.2 this
  omega

/-- A step of a call is defined, and keeps everything. -/
theorem Conf.BI.step (B : c.BI) {i : Nat} (hf : c.FgSafe i) : ∃ c', c.step i = .ok c' ∧ c'.BI ∧ AEvo c.a c'.a := by
  cases hi : c.calls[i]? with
  | none => exact ⟨c, by simp only [Conf.step, hi], B, .refl B.heap.base⟩
  | some cl =>
    have p := Conf.T_perm hi
    have I : HInv c.a.b (callT cl ++ c.rest i) := B.heap.perm p
    obtain ⟨hpc, hts⟩ := B.calls i cl hi
    have hgd : ∀ g, .gd g ∈ callT cl ++ c.rest i → ∃ v, c.a.guard g = some v ∧ c.a.gS g ≠ 0 :=
      fun g hg => BI_gd B.gi (p.mem_iff.2 hg)
    have hwk : ∀ g, .wk g ∈ callT cl ++ c.rest i → c.a.gW g ≠ 0 := fun g hg => BI_wk B.gi (p.mem_iff.2 hg)
    -- the step
    obtain ⟨a', cl', new, e, hb', I', ev, P', hpc', hts', hnew⟩ : ∃ a' cl' new, callStep c.a cl = .ok (a', cl', new) ∧
        cl'.borrow = cl.borrow ∧
        HInv a'.b (callT cl' ++ entsT new ++ c.rest i) ∧ AEvo c.a a' ∧ ParOK a' ∧ pcOK a' (cl.bh c) cl'.pc ∧
        (∀ t ∈ cl'.tasks, aplain t) ∧ ∀ en ∈ new, entOK a' en.h := by
      have hbh : ∀ h, cl.bh c = some h → entOK c.a h ∧ ∀ t ∈ entT ⟨h, false⟩, t ∈ c.rest i := by
        intro h e
        obtain ⟨k, b, _, hk⟩ := Conf.bh_get e
        exact ⟨B.ents k _ hk, fun t ht => Conf.get_tok hk i ht⟩
      cases htk : cl.tasks with
      | cons t ts =>
        have I1 : HInv c.a.b (ataskT t ++ (ts.flatMap ataskT ++ (pcT cl.pc ++ c.rest i))) := by
          refine I.count fun t ht => ?_
          simp only [callT, htk, List.flatMap_cons, List.append_assoc]
        obtain ⟨a', ts', e, I2, ev, P2, hpl⟩ := base_task I1 B.par (hts t (by simp [htk]))
          (fun g hg => hgd g (by simp only [callT, htk, List.flatMap_cons]; simp [hg]))
        refine ⟨a', { cl with tasks := ts' ++ ts }, [], ?_, rfl, ?_, ev, P2, ?_, ?_, by simp⟩
        · simp [callStep, htk, e, bind, Except.bind, pure, Except.pure]
        · refine I2.count fun t ht => ?_
          simp only [callT, entsT, List.flatMap_append, List.flatMap_nil, List.count_append, List.append_nil]; omega
        · refine hpc.mono ev B.par B.heap.base (fun d g hb => ?_) (fun x hx => ⟨?_, ?_⟩)
          · refine I2.live (mem_aS (t := .ref d) ?_ (by simp))
            have := (hbh _ hb).2 (.ref d) (by simp [entT])
            simp [this]
          · exact I.live (mem_aS (t := .ref x) (by simp [callT, hx]) (by simp))
          · exact I2.live (mem_aS (t := .ref x) (by simp [hx]) (by simp))
        · intro t ht
          rcases List.mem_append.1 ht with ht | ht
          · exact hpl t ht
          · exact hts t (by simp [htk, ht])
      | nil =>
        have I1 : HInv c.a.b (pcT cl.pc ++ c.rest i) := by
          refine I.count fun t ht => ?_
          simp only [callT, htk, List.flatMap_nil, List.nil_append]
        have hsub : ∀ t, t ∈ pcT cl.pc ++ c.rest i → t ∈ callT cl ++ c.rest i := by
          intro t ht; simpa [callT, htk] using ht
        obtain ⟨a', n, e, R⟩ := base_pc I1 B.par hpc (fun g hg => hgd g (hsub _ hg)) (fun g hg => hwk g (hsub _ hg)) hbh
          (fun c0 todo g r acc hp => hf cl c0 todo g r acc hi htk hp)
        refine ⟨a', { cl with pc := n.pc, tasks := n.tasks }, n.push, ?_, rfl, ?_, R.evo, R.par, R.pc, R.tasks, R.push⟩
        · simp [callStep, htk, e, bind, Except.bind, pure, Except.pure]
        · refine R.heap.count fun t ht => ?_
          simp only [callT, List.count_append]; omega
    have hstep : c.step i = .ok (c.after i a' cl' new) := by rw [Conf.step_eq hi, e]
    have pT := Conf.after_T hi a' cl' new
    refine ⟨_, hstep, ⟨I'.perm pT.symm, Conf.GI.step B.gi hstep, P', ?_, ?_⟩, ev⟩
    · intro k en hk
      rcases Conf.get_append_new hk with hk | ⟨_, hk⟩
      · have hk' : c.get k = some en := hk
        refine (B.ents k en hk').mono ev fun d g hd => ?_
        refine B.heap.lt (mem_aS (t := .ref d) (Conf.get_tok' hk' ?_) (by simp))
        simp [entT, hd]
      · exact hnew en hk
    · intro j clj hj
      have hbh' : ∀ clj : Call α, clj.bh c = none ∨ clj.bh (c.after i a' cl' new) = clj.bh c := by
        intro clj
        simp only [Call.bh]
        cases clj.borrow with
        | none => exact .inl rfl
        | some k =>
          cases hk : c.get k with
          | none => exact .inl (by simp [hk])
          | some en =>
            have : (c.after i a' cl' new).get k = some en := Conf.get_append hk
            exact .inr (by simp [hk, this])
      have hup : ∀ clj : Call α, ∀ {pc : Pc α}, pcOK a' (clj.bh c) pc → pcOK a' (clj.bh (c.after i a' cl' new)) pc := by
        intro clj pc h
        rcases hbh' clj with hn | hn
        · rw [hn] at h; exact h.any
        · rw [hn]; exact h
      by_cases hij : j = i
      · subst hij
        have hlen := (List.getElem?_eq_some_iff.1 hi).1
        simp only [Conf.after, List.getElem?_set_self hlen, Option.some.injEq] at hj
        subst hj
        refine ⟨?_, hts'⟩
        have : ∀ o, Call.bh { cl' with out := o } (c.after j a' cl' new) = cl.bh (c.after j a' cl' new) := by
          intro o; simp only [Call.bh, hb']
        rw [this]
        exact hup cl hpc'
      · have hj' : c.calls[j]? = some clj := by
          have hj0 : (c.calls.set i _)[j]? = some clj := hj
          rw [List.getElem?_set_ne (fun h => hij h.symm)] at hj0; exact hj0
        obtain ⟨h1, h2⟩ := B.calls j clj hj'
        refine ⟨hup clj (h1.mono ev B.par B.heap.base (fun d g hb => ?_) (fun x hx => ⟨?_, ?_⟩)), h2⟩
        · obtain ⟨k, b, _, hk⟩ := Conf.bh_get hb
          refine I'.live (mem_aS (t := .ref d) (List.mem_append_right _ (Conf.get_tok hk i ?_)) (by simp))
          simp [entT]
        · refine B.heap.live (mem_aS (t := .ref x) (Conf.call_tok hj' ?_) (by simp))
          simp [callT, hx]
        · refine I'.live (mem_aS (t := .ref x) (List.mem_append_right _ (Conf.rest_call hj' hij ?_)) (by simp))
          simp [callT, hx]

/-- The first program point of a call, and what it may rely on. -/
theorem Conf.start_calls {op : Op α} (B : c.BI) (h : c.start op = some c') :
    (∀ k e, c'.get k = some e → ∃ k' e', c.get k' = some e' ∧ e'.h = e.h ∨ e.h = .weak none none) ∧
    ∀ (i : Nat) cl, c'.calls[i]? = some cl → pcOK c.a (cl.bh c') cl.pc ∧ ∀ t ∈ cl.tasks, aplain t := by
  -- adding a call
  have hadd : ∀ (hs : List (Option Ent)) (cl : Call α),
      (∀ k e, Conf.get ⟨c.a, hs, c.calls ++ [cl]⟩ k = some e → c.get k = some e) →
      (∀ k e, c.borrowed k = true → c.get k = some e → Conf.get ⟨c.a, hs, c.calls ++ [cl]⟩ k = some e) →
      (pcOK c.a (cl.bh ⟨c.a, hs, c.calls ++ [cl]⟩) cl.pc ∧ ∀ t ∈ cl.tasks, aplain t) →
      ∀ (i : Nat) cl', (c.calls ++ [cl])[i]? = some cl' → pcOK c.a (cl'.bh ⟨c.a, hs, c.calls ++ [cl]⟩) cl'.pc ∧ ∀ t ∈ cl'.tasks, aplain t := by
    intro hs cl h1 h2 h3 i cl' hi
    by_cases hlt : i < c.calls.length
    · rw [List.getElem?_append_left hlt] at hi
      obtain ⟨h4, h5⟩ := B.calls i cl' hi
      refine ⟨?_, h5⟩
      by_cases hfin : cl'.pc.isDone = true
      · cases hp : cl'.pc with
        | done r => trivial
        | _ => rw [hp] at hfin; cases hfin
      · have : cl'.bh ⟨c.a, hs, c.calls ++ [cl]⟩ = cl'.bh c ∨ cl'.bh c = none := by
          simp only [Call.bh]
          cases hb : cl'.borrow with
          | none => exact .inr rfl
          | some k =>
            cases hk : c.get k with
            | none => exact .inr (by simp [hk])
            | some en =>
              refine .inl ?_
              have : c.borrowed k = true := by
                simp only [Conf.borrowed, List.any_eq_true]
                refine ⟨cl', List.mem_of_getElem? hi, ?_⟩
                simp only [Call.fin, hb, beq_self_eq_true, Bool.and_true]
                rw [Bool.not_eq_true']
                rw [Bool.eq_false_iff.2 hfin, Bool.and_false]
              simp [h2 k en this hk, hk]
        rcases this with e | e
        · rw [e]; exact h4
        · rw [e] at h4; exact h4.any
    · rw [List.getElem?_append_right (by omega)] at hi
      have : cl' = cl := by
        cases hn : i - c.calls.length with
        | zero => rw [hn] at hi; simpa using hi.symm
        | succ n => rw [hn] at hi; simp at hi
      subst this; exact h3
  have hpl : ∀ op (pc : Pc α), pcOK c.a none pc →
      (∀ k e, (c.plain op pc).get k = some e → ∃ k' e', c.get k' = some e' ∧ e'.h = e.h ∨ e.h = .weak none none) ∧
      ∀ (i : Nat) cl, (c.plain op pc).calls[i]? = some cl → pcOK c.a (cl.bh (c.plain op pc)) cl.pc ∧ ∀ t ∈ cl.tasks, aplain t := by
    intro op pc hp
    exact ⟨fun k e hk => ⟨k, e, .inl ⟨hk, rfl⟩⟩,
      hadd c.hs { op, pc } (fun _ _ h => h) (fun _ _ _ h => h) ⟨hp, by simp⟩⟩
  have hsh : ∀ op k (pc : Pc α) e, c.get k = some e → pcOK c.a (some e.h) pc →
      (∀ k2 e, (c.shared op k pc).get k2 = some e → ∃ k' e', c.get k' = some e' ∧ e'.h = e.h ∨ e.h = .weak none none) ∧
      ∀ (i : Nat) cl, (c.shared op k pc).calls[i]? = some cl → pcOK c.a (cl.bh (c.shared op k pc)) cl.pc ∧ ∀ t ∈ cl.tasks, aplain t := by
    intro op k pc e hk hp
    refine ⟨fun k e hk => ⟨k, e, .inl ⟨hk, rfl⟩⟩,
      hadd c.hs { op, pc, borrow := some k, on := c.node k } (fun _ _ h => h) (fun _ _ _ h => h) ⟨?_, by simp⟩⟩
    have : Conf.get ⟨c.a, c.hs, c.calls ++ [{ op, pc, borrow := some k, on := c.node k }]⟩ k = some e := hk
    simp only [Call.bh, Option.bind_some, this, Option.map_some]; exact hp
  have htk : ∀ op k (pc : Pc α) ts e, c.get k = some e → c.borrowed k ≠ true → pcOK c.a none pc → (∀ t ∈ ts, aplain t) →
      (∀ k2 e, (c.taking op k pc ts).get k2 = some e → ∃ k' e', c.get k' = some e' ∧ e'.h = e.h ∨ e.h = .weak none none) ∧
      ∀ (i : Nat) cl, (c.taking op k pc ts).calls[i]? = some cl → pcOK c.a (cl.bh (c.taking op k pc ts)) cl.pc ∧ ∀ t ∈ cl.tasks, aplain t := by
    intro op k pc ts e hk hnb hp hts
    have hset : ∀ k2 e, Conf.get ⟨c.a, c.hs.set k none, c.calls ++ [{ op, pc, tasks := ts, on := c.node k }]⟩ k2 = some e → c.get k2 = some e := by
      intro k2 e2 h2
      simp only [Conf.get] at h2 ⊢
      by_cases hkk : k2 = k
      · subst hkk
        rw [List.getElem?_set_self (c.get_lt hk)] at h2; cases h2
      · rw [List.getElem?_set_ne (fun h => hkk h.symm)] at h2; exact h2
    refine ⟨fun k2 e2 h2 => ⟨k2, e2, .inl ⟨hset k2 e2 h2, rfl⟩⟩,
      hadd (c.hs.set k none) { op, pc, tasks := ts, on := c.node k } hset (fun k2 e2 hb h2 => ?_) ⟨hp, hts⟩⟩
    simp only [Conf.get] at h2 ⊢
    have hkk : k2 ≠ k := by rintro rfl; exact hnb hb
    rw [List.getElem?_set_ne (fun h => hkk h.symm)]; exact h2
  cases op with
  | new xs => simp only [Conf.start, Option.some.injEq] at h; subst h; exact hpl _ _ trivial
  | mutNew xs => simp only [Conf.start, Option.some.injEq] at h; subst h; exact hpl _ _ trivial
  | weakNew =>
    simp only [Conf.start, Option.some.injEq] at h; subst h
    refine ⟨fun k e hk => ?_, fun i cl hi => ?_⟩
    · rcases Conf.get_append_new (new := [⟨.weak none none, false⟩]) hk with hk | ⟨_, hk⟩
      · exact ⟨k, e, .inl ⟨hk, rfl⟩⟩
      · simp only [List.mem_singleton] at hk; subst hk; exact ⟨0, ⟨.weak none none, false⟩, .inr rfl⟩
    · obtain ⟨h1, h2⟩ := B.calls i cl hi
      refine ⟨?_, h2⟩
      cases hbh : cl.bh c with
      | none => rw [hbh] at h1; exact h1.any
      | some hh =>
        obtain ⟨k, b, hb, hk⟩ := Conf.bh_get hbh
        have : Conf.get ⟨c.a, c.hs ++ [some ⟨.weak none none, false⟩], c.calls⟩ k = some ⟨hh, b⟩ := Conf.get_append hk
        have h3 : cl.bh { c with hs := c.hs ++ [some ⟨.weak none none, false⟩] } = some hh := by
          simp [Call.bh, hb, this]
        rw [h3, ← hbh]; exact h1
  | clone k =>
    simp only [Conf.start] at h
    split at h
    · next hk => cases h; exact hsh _ _ _ _ hk rfl
    · next hk => cases h; exact hsh _ _ _ _ hk rfl
    · cases h
  | cloneSide s k =>
    simp only [Conf.start] at h
    split at h
    · next hk => cases h; exact hsh _ _ _ _ hk rfl
    · cases h
  | endMut k =>
    simp only [Conf.start] at h
    split at h
    · next d g hk =>
      cases h
      have hlt := c.get_lt hk
      have hset : ∀ k2, (Conf.get ⟨c.a, c.hs.set k (some ⟨.strong d g, false⟩), c.calls⟩ k2).map (·.h) = (c.get k2).map (·.h) := by
        intro k2
        by_cases hkk : k2 = k
        · subst hkk
          rw [hk]
          simp only [Conf.get, List.getElem?_set_self hlt]; rfl
        · simp only [Conf.get, List.getElem?_set_ne (fun h => hkk (Eq.symm h))]
      refine ⟨fun k2 e2 h2 => ?_, fun i cl hi => ?_⟩
      · have := hset k2
        rw [h2] at this
        cases hk2 : c.get k2 with
        | none => rw [hk2] at this; cases this
        | some e3 => 
          rw [hk2] at this
          simp only [Option.map_some, Option.some.injEq] at this
          exact ⟨k2, e3, .inl ⟨hk2, this.symm⟩⟩
      · obtain ⟨h1, h2⟩ := B.calls i cl hi
        refine ⟨?_, h2⟩
        have : cl.bh { c with hs := c.hs.set k (some ⟨.strong d g, false⟩) } = cl.bh c := by
          simp only [Call.bh]
          cases cl.borrow with
          | none => rfl
          | some k2 => exact hset k2
        rw [this]; exact h1
    · cases h
  | downgrade k =>
    simp only [Conf.start] at h
    split at h
    · next hk => cases h; exact hsh _ _ _ _ hk rfl
    · cases h
  | upgrade k =>
    simp only [Conf.start] at h
    split at h
    · next hk => cases h; exact hsh _ _ _ _ hk ⟨_, rfl⟩
    · cases h
  | getMut k =>
    simp only [Conf.start] at h
    split at h
    · next hk =>
      split at h
      · cases h
      · next hb => cases h; exact htk _ _ _ _ _ hk hb (B.ents _ _ hk) (by simp)
    · cases h
  | intoMut k =>
    simp only [Conf.start] at h
    split at h
    · next hk =>
      split at h
      · cases h
      · next hb => cases h; exact htk _ _ _ _ _ hk hb (B.ents _ _ hk) (by simp)
    · cases h
  | intoImmut k =>
    simp only [Conf.start] at h
    split at h
    · next hk =>
      split at h
      · cases h
      · next hb => cases h; exact htk _ _ _ _ _ hk hb trivial (by simp)
    · cases h
  | splitOff s k =>
    simp only [Conf.start] at h
    split at h
    · next hk =>
      split at h
      · cases h
      · next hb => cases h; exact htk _ _ _ _ _ hk hb trivial (by simp)
    · cases h
  | next e k =>
    simp only [Conf.start] at h
    split at h
    · next hk =>
      split at h
      · cases h
      · next hb => cases h; exact htk _ _ _ _ _ hk hb trivial (by simp)
    · cases h
  | cut e n k =>
    simp only [Conf.start] at h
    split at h
    · next hk =>
      split at h
      · cases h
      · next hb => cases h; exact htk _ _ _ _ _ hk hb trivial (by simp)
    · cases h
  | drop k =>
    simp only [Conf.start] at h
    split at h
    · next hk =>
      split at h
      · cases h
      · next hb => cases h; exact htk _ _ _ _ _ hk hb trivial (by simp [aplain])
    · next hk =>
      split at h
      · cases h
      · next hb => cases h; exact htk _ _ _ _ _ hk hb trivial (by simp)
    · next hk =>
      split at h
      · cases h
      · next hb => cases h; exact htk _ _ _ _ _ hk hb trivial (by
        intro t ht; simp only [List.mem_singleton] at ht; subst ht; trivial)
    · cases h

theorem Conf.BI.start {op : Op α} (B : c.BI) (h : c.start op = some c') : c'.BI := by
  obtain ⟨p, ea⟩ := Conf.start_T h
  obtain ⟨h1, h2⟩ := Conf.start_calls B h
  refine ⟨by rw [ea]; exact B.heap.perm p.symm, B.gi.start h, by rw [ea]; exact B.par, ?_, by rw [ea]; exact h2⟩
  intro k e hk
  obtain ⟨k', e', h3⟩ := h1 k e hk
  rw [ea]
  rcases h3 with ⟨h3, h4⟩ | h3
  · rw [← h4]; exact B.ents k' e' h3
  · rw [h3]; intro x hx; cases hx

/-- The items of a handle are there, and the memory they are in has not been given back. -/
theorem Conf.BI.shows (B : c.BI) {k : Nat} {e : Ent} (hk : c.get k = some e) :
    ∃ o, Conf.range c.a e.h = .ok o ∧ ∀ b off len, o = some (b, off, len) → (0 < len → c.a.b.accessible b = true) ∧
      ∀ i, off ≤ i → i < off + len → ∃ x, c.a.b.slot b i = .live x := by
  cases hh : e.h with
  | strong d g =>
    have hd : d ∈ aS c.T := mem_aS (t := .ref d) (Conf.get_tok' hk (by simp [entT, hh])) (by simp)
    have ho := B.ents k e hk
    rw [hh] at ho
    obtain ⟨v, hv⟩ := B.heap.data hd ho
    refine ⟨some (v.buf, v.off, v.len), by simp [Conf.range, getData_ok hv, bind, Except.bind, pure, Except.pure], ?_⟩
    rintro b off len ⟨⟩
    exact ⟨fun hl => B.heap.good.data_accessible hv hl, fun i h1 h2 => B.heap.good.data_items hv h1 h2⟩
  | weak d g => exact ⟨none, rfl, by simp⟩
  | uniq r =>
    have hr : .reg r ∈ c.T := Conf.get_tok' hk (by simp [entT, hh])
    refine ⟨some (r.buf, r.off, r.len), rfl, ?_⟩
    rintro b off len ⟨⟩
    exact ⟨fun hl => B.heap.accessible hr hl, fun i h1 h2 => B.heap.reg_live hr h1 h2⟩

theorem Conf.BI.write (B : c.BI) {k : Nat} {e : Ent} (hk : c.get k = some e) (j : Nat) (x : α) :
    ∃ c', c.write e j x = .ok c' ∧ c'.BI ∧ c'.a.b.sk = c.a.b.sk ∧ c'.a.b.strong = c.a.b.strong ∧ c'.hs = c.hs ∧ c'.calls = c.calls := by
  obtain ⟨o, ho, hs⟩ := B.shows hk
  cases o with
  | none => exact ⟨c, by simp [Conf.write, ho, bind, Except.bind, pure, Except.pure], B, rfl, rfl, rfl, rfl⟩
  | some o =>
    obtain ⟨b, off, len⟩ := o
    obtain ⟨h1, h2⟩ := hs b off len rfl
    by_cases hj : j < len
    · obtain ⟨y, hy⟩ := h2 (off + j) (by omega) (by omega)
      have hacc := h1 (by omega)
      have e1 : writeItem c.a.b b (off + j) x = .ok (c.a.b.setSlot b (off + j) (.live x)) := by
        simp [writeItem, hacc, hy]
      have e2 : c.write e j x = .ok { c with a := c.a.withB (c.a.b.setSlot b (off + j) (.live x)) } := by
        simp [Conf.write, ho, hj, e1, bind, Except.bind, pure, Except.pure]
      refine ⟨_, e2, ⟨B.heap.write hy, B.gi.write e2, ⟨B.par.par, B.par.kid, B.par.root⟩, ?_, ?_⟩, rfl, rfl, rfl, rfl⟩
      · intro k e hk
        have := B.ents k e hk
        cases hh : e.h <;> simp only [hh, entOK] at this ⊢ <;> exact this
      · intro i cl hi
        obtain ⟨h1, h2⟩ := B.calls i cl hi
        exact ⟨h1.congr rfl rfl, h2⟩
    · exact ⟨c, by simp [Conf.write, ho, hj, bind, Except.bind, pure, Except.pure], B, rfl, rfl, rfl, rfl⟩

end
end Verif.Arc

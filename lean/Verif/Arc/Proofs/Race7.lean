import Verif.Arc.Proofs.Race6
/-!
# Calls begin knowing what the handles they are given know
-/

namespace Verif.Arc
open Verif.Spec (Side Slot Family Rng End)
open Verif.Rc
variable {α : Type}

theorem mem_knows {v : VConf α} {X : View} {k e : Nat} {ex : Bool} : e ∈ v.knows X k ex ↔ e ∈ X ∨ e ∈ v.hb k ∨ (ex = true ∧ e ∈ v.ha k) := by
  simp only [VConf.knows, View.mem_join]
  cases ex <;> simp

/-- The beginning of a call. -/
structure VSta (w : Bool) (v v' : VConf α) : Prop where
  a : v'.c.a = v.c.a
  m : v'.m = v.m
  ha : v'.ha = v.ha
  log : v'.log = v.log
  hb : ∀ k, k < v.c.hs.length → v'.hb k = v.hb k
  /-- a handle stays, or the call gets it -/
  ent : ∀ k en, v.c.get k = some en → (∃ en', v'.c.get k = some en' ∧ entT en' = entT en) ∨
    (∃ i cl, v'.c.calls[i]? = some cl ∧ (∀ t ∈ entT en, t ∈ callT cl) ∧ ∀ e, e ∈ v.hb k ∨ e ∈ v.ha k → e ∈ v'.cv i)
  call : ∀ i cl, v.c.calls[i]? = some cl → v'.c.calls[i]? = some cl ∧ v'.cv i = v.cv i
  ent' : ∀ k en, v'.c.get k = some en → (∃ en', v.c.get k = some en' ∧ en'.h = en.h) ∨ (v.c.hs.length ≤ k ∧ en.h = .weak none none)
  /-- a new call knows what the handle it has been given does -/
  call' : ∀ i cl, v'.c.calls[i]? = some cl → v.c.calls[i]? = some cl ∨
    ((callT cl ≠ [] → ∃ k en, v.c.get k = some en ∧ (∀ t ∈ callT cl, t ∈ entT en) ∧ ∀ e, e ∈ v.hb k ∨ e ∈ v.ha k → e ∈ v'.cv i) ∧
     (∀ k, cl.borrow = some k → ∃ en, v.c.get k = some en ∧ ∀ e, e ∈ v.hb k → e ∈ v'.cv i) ∧
     (∀ d, d ∈ keyP cl.pc → ∃ k en, v.c.get k = some en ∧ srcH w en.h = some d ∧ ∀ e, e ∈ v.hb k → e ∈ v'.cv i))

section
variable {v : VConf α} {X : View} {w : Bool}

/-- The knowledge of a new call. -/
abbrev VConf.begun (v : VConf α) (c' : Conf α) (V : View) : VConf α :=
  { v with c := c', hb := fun k => if v.c.hs.length ≤ k then V else v.hb k, cv := fun i => if v.c.calls.length ≤ i then V else v.cv i }

theorem begun_hb {c' : Conf α} {V : View} {k : Nat} (h : k < v.c.hs.length) : (v.begun c' V).hb k = v.hb k := by
  simp only [if_neg (Nat.not_le.2 h)]

theorem begun_cv {c' : Conf α} {V : View} {i : Nat} (h : i < v.c.calls.length) : (v.begun c' V).cv i = v.cv i := by
  simp only [if_neg (Nat.not_le.2 h)]

theorem begun_new {c' : Conf α} {V : View} : (v.begun c' V).cv v.c.calls.length = V := by
  simp only [Nat.le_refl, if_true]

theorem call_lt {c : Conf α} {i : Nat} {cl : Call α} (h : c.calls[i]? = some cl) : i < c.calls.length := (List.getElem?_eq_some_iff.1 h).1

theorem append_call {β : Type} {l : List β} {i : Nat} {x y : β} (h : (l ++ [x])[i]? = some y) : l[i]? = some y ∨ i = l.length ∧ y = x := by
  by_cases hlt : i < l.length
  · rw [List.getElem?_append_left hlt] at h; exact .inl h
  · rw [List.getElem?_append_right (by omega)] at h
    cases hn : i - l.length with
    | zero => rw [hn] at h; simp at h; exact .inr ⟨by omega, h.symm⟩
    | succ m => rw [hn] at h; simp at h

/-- A call that needs no handle, or changes the table. -/
theorem VSta.plain {op : Op α} {pc : Pc α} {V : View} (hT : pcT pc = []) (hk : keyP pc = []) : VSta w v (v.begun (v.c.plain op pc) V) where
  a := rfl
  m := rfl
  ha := rfl
  log := rfl
  hb _ h := begun_hb h
  ent k en hk := .inl ⟨en, hk, rfl⟩
  call i cl hi := ⟨by simpa [Conf.plain, List.getElem?_append_left (call_lt hi)] using hi, begun_cv (call_lt hi)⟩
  ent' k en hk := .inl ⟨en, hk, rfl⟩
  call' i cl hi := by
    rcases plain_calls hi with h | ⟨rfl, rfl⟩
    · exact .inl h
    · refine .inr ⟨fun h => absurd ?_ h, (fun k h => by cases h), fun d h => ?_⟩
      · simp [callT, hT]
      · replace h : d ∈ keyP pc := h
        rw [hk] at h; cases h

theorem VSta.shared {op : Op α} {pc : Pc α} {k : Nat} {en : Ent} (hk : v.c.get k = some en) (hT : pcT pc = []) (hp : keyP pc = []) :
    VSta w v (v.begun (v.c.shared op k pc) (v.knows X k ((v.c.shared op k pc).get k).isNone)) where
  a := rfl
  m := rfl
  ha := rfl
  log := rfl
  hb _ h := begun_hb h
  ent k en hk := .inl ⟨en, hk, rfl⟩
  call i cl hi := ⟨by simpa [Conf.shared, List.getElem?_append_left (call_lt hi)] using hi, begun_cv (call_lt hi)⟩
  ent' k en hk := .inl ⟨en, hk, rfl⟩
  call' i cl hi := by
    rcases shared_calls hi with h | ⟨rfl, rfl⟩
    · exact .inl h
    · refine .inr ⟨fun h => absurd ?_ h, fun k' h => ?_, fun d h => ?_⟩
      · simp [callT, hT]
      · cases h
        refine ⟨en, hk, fun e he => ?_⟩
        rw [begun_new]
        exact mem_knows.2 (.inr (.inl he))
      · replace h : d ∈ keyP pc := h
        rw [hp] at h; cases h

theorem VSta.taking {op : Op α} {pc : Pc α} {k : Nat} {ts : List ATask} {en : Ent} (hk : v.c.get k = some en)
    (hT : ∀ t, t ∈ ts.flatMap ataskT ++ pcT pc ↔ t ∈ entT en) (hp : ∀ d, d ∈ keyP pc → srcH w en.h = some d) :
    VSta w v (v.begun (v.c.taking op k pc ts) (v.knows X k ((v.c.taking op k pc ts).get k).isNone)) := by
  have hn : (v.c.taking op k pc ts).get k = none := by
    cases h : (v.c.taking op k pc ts).get k with
    | none => rfl
    | some e2 => exact absurd rfl (taking_get hk h).1
  have hcv : ∀ e, e ∈ v.hb k ∨ e ∈ v.ha k → e ∈ (v.begun (v.c.taking op k pc ts) (v.knows X k ((v.c.taking op k pc ts).get k).isNone)).cv
      v.c.calls.length := by
    intro e he
    rw [begun_new, hn]
    exact mem_knows.2 (.inr (he.imp id fun h => ⟨rfl, h⟩))
  refine ⟨rfl, rfl, rfl, rfl, fun _ h => begun_hb h, ?_, ?_, ?_, ?_⟩
  · intro k' en' hk'
    by_cases h : k' = k
    · subst h
      rw [hk] at hk'; cases hk'
      refine .inr ⟨v.c.calls.length, { op, pc, tasks := ts, on := v.c.node k' }, ?_, fun t ht => (hT t).2 ht, hcv⟩
      simp [Conf.taking]
    · exact .inl ⟨en', taking_get_old h hk', rfl⟩
  · intro i cl hi
    exact ⟨by simpa [Conf.taking, List.getElem?_append_left (call_lt hi)] using hi, begun_cv (call_lt hi)⟩
  · intro k' en' hk'
    exact .inl ⟨en', (taking_get hk hk').2, rfl⟩
  · intro i cl hi
    rcases taking_calls hi with h | ⟨rfl, rfl⟩
    · exact .inl h
    · refine .inr ⟨fun _ => ⟨k, en, hk, fun t ht => (hT t).1 ht, hcv⟩, (fun k' h => by cases h), fun d h => ?_⟩
      exact ⟨k, en, hk, hp d h, fun e he => hcv e (.inl he)⟩

theorem VSta.of {v' : VConf α} {op : Op α} (e : v.start op X = some v') : VSta w v v' := by
  simp only [VConf.start] at e
  split at e
  · cases e
  · next c' hc =>
    cases e
    cases SStep.of hc with
    | new xs => exact .plain rfl rfl
    | mutNew xs => exact .plain rfl rfl
    | weakNew =>
      refine ⟨rfl, rfl, rfl, rfl, fun _ h => begun_hb h, ?_, ?_, ?_, fun i cl hi => .inl hi⟩
      · intro k en hk
        exact .inl ⟨en, Conf.get_append hk, rfl⟩
      · intro i cl hi
        exact ⟨hi, begun_cv (call_lt hi)⟩
      · intro k en hk
        rcases weakNew_get hk with h | ⟨h, rfl⟩
        · exact .inl ⟨en, h, rfl⟩
        · exact .inr ⟨h, rfl⟩
    | endMut k d g hk =>
      refine ⟨rfl, rfl, rfl, rfl, fun _ h => begun_hb h, ?_, ?_, ?_, fun i cl hi => .inl hi⟩
      · intro k' en hk'
        refine .inl ?_
        by_cases h : k' = k
        · subst h
          rw [hk] at hk'; cases hk'
          exact ⟨⟨.strong d g, false⟩, by simp [Conf.get, List.getElem?_set_self (Conf.get_lt hk)], rfl⟩
        · exact ⟨en, by simp only [Conf.get] at hk' ⊢; rw [List.getElem?_set_ne (fun h' => h h'.symm)]; exact hk', rfl⟩
      · intro i cl hi
        exact ⟨hi, begun_cv (call_lt hi)⟩
      · intro k' en hk'
        rcases endMut_get hk hk' with ⟨rfl, rfl⟩ | ⟨_, h⟩
        · exact .inl ⟨_, hk, rfl⟩
        · exact .inl ⟨en, h, rfl⟩
    | clone k d g hk => exact .shared hk rfl rfl
    | cloneW k d g b hk => exact .shared hk rfl rfl
    | cloneSide s k d g hk => exact .shared hk rfl rfl
    | downgrade k d g hk => exact .shared hk rfl rfl
    | upgrade k d g b hk => exact .shared hk rfl rfl
    | getMut k d g hk hb => exact .taking hk (by simp [pcT, entT]) (by simp [keyP, srcH])
    | intoMut k d g hk hb => exact .taking hk (by simp [pcT, entT]) (by simp [keyP, srcH])
    | intoImmut k r b hk hb => exact .taking hk (by simp [pcT, entT]) (by simp [keyP])
    | splitOff s k r b hk hb => exact .taking hk (by simp [pcT, entT]) (by simp [keyP])
    | next en k r b hk hb => exact .taking hk (by simp [pcT, entT]) (by simp [keyP])
    | cut en n k r b hk hb => exact .taking hk (by simp [pcT, entT]) (by simp [keyP])
    | dropS k d g hk hb => exact .taking hk (by simp [pcT, entT, ataskT]) (by simp [keyP])
    | dropW k d g b hk hb => exact .taking hk (by simp [pcT, entT]) (by simp [keyP])
    | dropU k r b hk hb => exact .taking hk (by simp [pcT, entT, ataskT, taskT]) (by simp [keyP])

end

section
variable {v v' : VConf α} {w wr : Bool} {e b s : Nat}

theorem VSta.kn (S : VSta w v v') {x : Nat} (h : Kn v e x) : Kn v' e x := by
  induction h with
  | cnt h => exact .cnt (by rw [S.m]; exact h)
  | @ent x k en hk hx h =>
    rcases S.ent k en hk with ⟨en', h1, h2⟩ | ⟨i, cl, h1, h2, h3⟩
    · refine .ent h1 (by rw [h2]; exact hx) ?_
      rw [S.hb k (Conf.get_lt hk), S.ha]; exact h
    · obtain ⟨t, ht, hx⟩ := List.mem_flatMap.1 hx
      exact .call h1 (mem_aS (h2 t ht) hx) (h3 e h)
  | call hi hx h =>
    obtain ⟨h1, h2⟩ := S.call _ _ hi
    exact .call h1 hx (by rw [h2]; exact h)
  | node hy hx h ih => exact .node (by rw [S.a]; exact hy) hx ih

theorem entT_h {en en' : Ent} (h : en'.h = en.h) : entT en' = entT en := by simp only [entT, h]

theorem VSta.inf (S : VSta w v v') (F : Inf w v e wr b s) : Inf w v' e wr b s := by
  have noW : ∀ {k en d}, v'.c.get k = some en → srcH w en.h = some d → ∃ en', v.c.get k = some en' ∧ en'.h = en.h := by
    intro k en d hk hs
    rcases S.ent' k en hk with h | ⟨_, h⟩
    · exact h
    · rw [h] at hs; cases w <;> cases hs
  refine ⟨by rw [S.a]; exact F.lt, ?_, ?_, ?_, ?_, ?_, ?_, ?_⟩
  · intro y n hy ho
    rw [S.a] at hy
    exact S.kn (F.node y n hy ho)
  · intro k en hk ho
    rcases S.ent' k en hk with ⟨en', h1, h2⟩ | ⟨_, h⟩
    · rw [S.hb k (Conf.get_lt h1), S.ha]
      exact F.ent k en' h1 (by rw [entT_h h2]; exact ho)
    · simp [entT, h] at ho
  · intro i cl hi ho
    rcases S.call' i cl hi with h | ⟨h, _⟩
    · rw [(S.call i cl h).2]; exact F.call i cl h ho
    · obtain ⟨k, en, h1, h2, h3⟩ := h (by intro h; simp [h] at ho)
      exact h3 e (F.ent k en h1 (aG_sub h2 ho))
  · intro hz x hx
    rw [S.a] at hz hx
    exact S.kn (F.alloc hz x hx)
  · intro hw k en d hk hs hc
    obtain ⟨en', h1, h2⟩ := noW hk hs
    rw [S.hb k (Conf.get_lt h1)]
    exact F.kent hw k en' d h1 (h2 ▸ hs) (S.a ▸ hc)
  · intro hw i cl k en d hi hbo hk hs hc
    obtain ⟨en', h1, h2⟩ := noW hk hs
    rcases S.call' i cl hi with h | ⟨_, h, _⟩
    · rw [(S.call i cl h).2]
      exact F.kbor hw i cl k en' d h hbo h1 (h2 ▸ hs) (S.a ▸ hc)
    · obtain ⟨en2, h3, h4⟩ := h k hbo
      exact h4 e (F.kent hw k en' d h1 (h2 ▸ hs) (S.a ▸ hc))
  · intro hw i cl d hi hd hc
    rcases S.call' i cl hi with h | ⟨_, _, h⟩
    · rw [(S.call i cl h).2]
      exact F.kpc hw i cl d h hd (S.a ▸ hc)
    · obtain ⟨k, en, h1, h2, h3⟩ := h d hd
      exact h3 e (F.kent hw k en d h1 h2 (S.a ▸ hc))

end
end Verif.Arc

import Verif.Arc.Proofs.Child
/-!
# When `get_mut` and `into_mut` are refused
-/

namespace Verif.Arc
open Verif.Spec (Side Slot Family Rng End)
open Verif.Rc
variable {α : Type} {c c' : Conf α}

/-- A name is not given twice. -/
theorem step_get_back {i k : Nat} {e : Ent} (h : c.step i = .ok c') (hl : k < c.hs.length) (hk : c'.get k = some e) : c.get k = some e := by
  cases CStep.of h with
  | none _ => exact hk
  | task =>
    rcases after_get hk with h | ⟨_, h⟩
    · exact h
    · cases h
  | pc =>
    rcases after_get hk with h | ⟨h, _⟩
    · exact h
    · omega

theorem start_get_back {op : Op α} {k : Nat} {e : Ent} (h : c.start op = some c') (hl : k < c.hs.length) (hk : c'.get k = some e) :
    ∃ e', c.get k = some e' ∧ e'.h = e.h := by
  rcases start_get (.of h) hk with h | ⟨_, h, _⟩ | ⟨d, g, _, h1, h2⟩
  · exact ⟨e, h, rfl⟩
  · omega
  · exact ⟨_, h1, by rw [h2]⟩

theorem step_len {i : Nat} (h : c.step i = .ok c') : c.hs.length ≤ c'.hs.length := by
  cases CStep.of h with
  | none _ => exact Nat.le_refl _
  | task => simp [Conf.after]
  | pc => simp [Conf.after]

/-- A handle to the same slice or to something below keeps the guard busy. -/
theorem busy_below (B : c.BI) (F : c.GFI) {i : Nat} {cl : Call α} (hi : c.calls[i]? = some cl) {d g : Nat}
    (hd : .ref d ∈ callT cl) (hg : .gd g ∈ callT cl) (ho : ofG c.a d g) (hk : c.a.b.sk.kind d = .data) {k' d' g' : Nat} {b : Bool}
    (hk' : c.get k' = some ⟨.strong d' g', b⟩) (hu : (c.a.b.sk.lab d).up (c.a.b.sk.lab d')) : c.a.gS g ≠ 1 := by
  intro h1
  obtain ⟨h2, h3⟩ := Conf.lonely_guards B F hi hd hg ho hk h1
  have hr : .ref d' ∈ c.T := Conf.get_tok' hk' (by simp [entT])
  have hkd : c.a.b.sk.kind d' = .data := B.ents k' _ hk'
  have h4 := h3 g' d' (Conf.get_tok' hk' (by simp [entT])) (F.ents k' _ hk') hr hkd hu
  obtain ⟨vd, hvd⟩ := B.heap.data (ref_mem_aS (Conf.call_tok hi hd)) hk
  obtain ⟨v', hv'⟩ := B.heap.data (ref_mem_aS hr) hkd
  have := B.heap.good.shape.toDShape.dataUniq d' v' d vd hv' hvd h4
  subst this
  exact h2 k' g' b hk'

/-- A handle to something above keeps the data shared. -/
theorem busy_above (B : c.BI) {i : Nat} {cl : Call α} (hi : c.calls[i]? = some cl) {d : Nat}
    (hd : .ref d ∈ callT cl) (hk : c.a.b.sk.kind d = .data) {k' d' g' : Nat} {b : Bool}
    (hk' : c.get k' = some ⟨.strong d' g', b⟩) (hu : (c.a.b.sk.lab d').up (c.a.b.sk.lab d)) (hne : c.a.b.sk.lab d' ≠ c.a.b.sk.lab d) :
    c.a.b.strong d ≠ 1 := by
  intro h1
  have hr : .ref d' ∈ c.T := Conf.get_tok' hk' (by simp [entT])
  obtain ⟨vd, hvd⟩ := B.heap.data (ref_mem_aS (Conf.call_tok hi hd)) hk
  obtain ⟨v', hv'⟩ := B.heap.data (ref_mem_aS hr) (B.ents k' _ hk')
  obtain ⟨q, u, s, hq, hs, _⟩ := parent_live B.heap.good.shape.toDShape hv' hvd hu hne
  obtain ⟨A, R, hT⟩ := List.append_of_mem (Conf.call_tok hi hd)
  have p : c.T.Perm (.ref d :: (A ++ R)) := by rw [hT]; exact List.perm_middle
  have g : Good c.a.b (d :: aS (A ++ R)) [] (aG (A ++ R)) := (B.heap.perm p).good
  refine g.ledger.no_ref h1 hq ?_
  cases s <;> simp [Node.srefs, hs]

/-- Where a call of `get_mut` or `into_mut` that will be refused can be. It must not pass the
check of the weak count (`l = 0`), of the strong count of the guard (`l = 1`), of the strong
count of the data (`l = 2`). -/
def refusing (d g l : Nat) (im : Bool) : Pc α → Prop
  | .gm0 d' g' | .gm1 d' g' => d' = d ∧ g' = g ∧ im = false
  | .gm2 d' g' | .gm3 d' g' => d' = d ∧ g' = g ∧ im = false ∧ 1 ≤ l
  | .im0 d' g' | .im1 d' g' => d' = d ∧ g' = g ∧ im = true ∧ 1 ≤ l
  | .gm4 d' g' => d' = d ∧ g' = g ∧ im = false ∧ 2 ≤ l
  | .im2 d' g' => d' = d ∧ g' = g ∧ im = true ∧ 2 ≤ l
  | .gmOpenC d' g' ok | .gmOpenD d' g' ok => d' = d ∧ g' = g ∧ im = false ∧ ok = false
  | .imOpen d' g' => d' = d ∧ g' = g ∧ im = true
  | .done .none => im = false
  | .done .err => im = true
  | _ => False

theorem refusing_step {a a' : Arena α} {pc : Pc α} {n : Next α} {d g l : Nat} {im : Bool} (e : PStep a pc a' n) (h : refusing d g l im pc)
    (h0 : l = 0 → a.gW g ≠ 1) (h1 : l = 1 → .gd g ∈ pcT pc → a.gS g ≠ 1) (h2 : 2 ≤ l → .ref d ∈ pcT pc → a.b.strong d ≠ 1) :
    n.tasks = [] ∧ refusing d g l im n.pc ∧ (n.push = [] ∨ n.push = [⟨.strong d g, false⟩]) := by
  cases e
  case gm1 v hv hc =>
    obtain ⟨rfl, rfl, hi⟩ := h
    have : l ≠ 0 := fun e => h0 e hc
    exact ⟨rfl, ⟨rfl, rfl, hi, by omega⟩, .inl rfl⟩
  case gm3 v hv hc =>
    obtain ⟨rfl, rfl, hi, _⟩ := h
    have : l ≠ 1 := fun e => h1 e (by simp [pcT]) hc
    exact ⟨rfl, ⟨rfl, rfl, hi, by omega⟩, .inl rfl⟩
  case im1 v hv hc =>
    obtain ⟨rfl, rfl, hi, _⟩ := h
    have : l ≠ 1 := fun e => h1 e (by simp [pcT]) hc
    exact ⟨rfl, ⟨rfl, rfl, hi, by omega⟩, .inl rfl⟩
  case gm4 v hv hc =>
    obtain ⟨rfl, rfl, hi, hl⟩ := h
    exact absurd hc (h2 hl (by simp [pcT]))
  case im2 v hv hc =>
    obtain ⟨rfl, rfl, hi, hl⟩ := h
    exact absurd hc (h2 hl (by simp [pcT]))
  case gmOpenC v hv => obtain ⟨rfl, rfl, hi, rfl⟩ := h; exact ⟨rfl, ⟨rfl, rfl, hi, rfl⟩, .inl rfl⟩
  case gmOpenD v hv => obtain ⟨rfl, rfl, hi, rfl⟩ := h; exact ⟨rfl, hi, .inr rfl⟩
  case done r => exact ⟨rfl, h, .inl rfl⟩
  all_goals first
    | exact False.elim h
    | (obtain ⟨rfl, rfl, hi, hl⟩ := h; first
        | exact ⟨rfl, hi, .inr rfl⟩
        | exact ⟨rfl, ⟨rfl, rfl, hi, hl⟩, .inl rfl⟩
        | exact ⟨rfl, ⟨rfl, rfl, hi⟩, .inl rfl⟩
        | exact ⟨rfl, ⟨rfl, rfl, hi, rfl⟩, .inl rfl⟩)
    | (obtain ⟨rfl, rfl, hi⟩ := h; first
        | exact ⟨rfl, hi, .inr rfl⟩
        | exact ⟨rfl, ⟨rfl, rfl, hi⟩, .inl rfl⟩
        | exact ⟨rfl, ⟨rfl, rfl, hi, rfl⟩, .inl rfl⟩)

/-- Call `j` is going to be refused as long as handle `k'` is `e'`. -/
structure Conf.RF (c : Conf α) (j k' : Nat) (e' : Handle) (d g l : Nat) (im : Bool) : Prop where
  len : k' < c.hs.length
  call : ∃ cl, c.calls[j]? = some cl ∧ (∀ m ∈ cl.out, m < c.hs.length) ∧
    ∀ b, c.get k' = some ⟨e', b⟩ → cl.tasks = [] ∧ refusing d g l im cl.pc ∧ ∀ m ∈ cl.out, ∀ e, c.get m = some e → e.h = .strong d g

theorem Conf.RF.step {i j k' : Nat} {e' : Handle} {d g l : Nat} {im : Bool} (R : c.RF j k' e' d g l im) (h : c.step i = .ok c')
    (h0 : ∀ b, c.get k' = some ⟨e', b⟩ → l = 0 → c.a.gW g ≠ 1)
    (h1 : ∀ b cl, c.get k' = some ⟨e', b⟩ → c.calls[j]? = some cl → refusing d g l im cl.pc → l = 1 → .gd g ∈ pcT cl.pc → c.a.gS g ≠ 1)
    (h2 : ∀ b cl, c.get k' = some ⟨e', b⟩ → c.calls[j]? = some cl → refusing d g l im cl.pc → 2 ≤ l → .ref d ∈ pcT cl.pc → c.a.b.strong d ≠ 1) :
    c'.RF j k' e' d g l im := by
  obtain ⟨cl, hj, hm, hc⟩ := R.call
  have hlen := step_len h
  have back : ∀ {b}, c'.get k' = some ⟨e', b⟩ → c.get k' = some ⟨e', b⟩ := fun hk => step_get_back h R.len hk
  refine ⟨Nat.lt_of_lt_of_le R.len hlen, ?_⟩
  have other : c'.calls[j]? = some cl → ∃ cl, c'.calls[j]? = some cl ∧ (∀ m ∈ cl.out, m < c'.hs.length) ∧
      ∀ b, c'.get k' = some ⟨e', b⟩ → cl.tasks = [] ∧ refusing d g l im cl.pc ∧ ∀ m ∈ cl.out, ∀ e, c'.get m = some e → e.h = .strong d g := by
    intro hj'
    refine ⟨cl, hj', fun m h => Nat.lt_of_lt_of_le (hm m h) hlen, fun b hk => ?_⟩
    obtain ⟨h3, h4, h5⟩ := hc b (back hk)
    exact ⟨h3, h4, fun m hmo e he => h5 m hmo e (step_get_back h (hm m hmo) he)⟩
  cases hS : CStep.of h with
  | none _ => exact other hj
  | task cl0 t ts a' new hi ht e =>
    by_cases hij : i = j
    · subst hij
      rw [hj] at hi; cases hi
      have hl : i < c.calls.length := (List.getElem?_eq_some_iff.1 hj).1
      refine ⟨_, by simp only [Conf.after, List.getElem?_set_self hl]; rfl, ?_, ?_⟩
      · intro m h; exact Nat.lt_of_lt_of_le (hm m (by simpa using h)) hlen
      · intro b hk
        rw [(hc b (back hk)).1] at ht; cases ht
    · exact other (by rw [Conf.after, List.getElem?_set_ne hij]; exact hj)
  | pc cl0 a' n hi ht e =>
    by_cases hij : i = j
    · subst hij
      rw [hj] at hi; cases hi
      have hl : i < c.calls.length := (List.getElem?_eq_some_iff.1 hj).1
      refine ⟨_, by simp only [Conf.after, List.getElem?_set_self hl]; rfl, ?_, ?_⟩
      · intro m h
        simp only [List.mem_append, List.mem_range'_1] at h
        rcases h with h | h
        · exact Nat.lt_of_lt_of_le (hm m h) hlen
        · simp only [Conf.after, List.length_append, List.length_map]; omega
      · intro b hk
        have hk0 := back hk
        obtain ⟨h3, h4, h5⟩ := hc b hk0
        obtain ⟨h6, h7, h8⟩ := refusing_step (.of e) h4 (h0 b hk0) (h1 b cl hk0 hj h4) (h2 b cl hk0 hj h4)
        refine ⟨h6, h7, fun m hmo e he => ?_⟩
        simp only [List.mem_append, List.mem_range'_1] at hmo
        rcases after_get he with h9 | ⟨_, h9⟩
        · rcases hmo with hmo | hmo
          · exact h5 m hmo e h9
          · exact absurd (c.get_lt h9) (by omega)
        · rcases h8 with h8 | h8
          · rw [h8] at h9; cases h9
          · rw [h8] at h9; simp only [List.mem_singleton] at h9; rw [h9]
    · exact other (by rw [Conf.after, List.getElem?_set_ne hij]; exact hj)

theorem start_calls_old {op : Op α} (h : c.start op = some c') {j : Nat} {cl : Call α} (hj : c.calls[j]? = some cl) : c'.calls[j]? = some cl := by
  have hl : j < c.calls.length := (List.getElem?_eq_some_iff.1 hj).1
  cases SStep.of h <;> first
    | exact hj
    | (simp only [Conf.plain, Conf.shared, Conf.taking]; rw [List.getElem?_append_left hl]; exact hj)

theorem Conf.RF.start {op : Op α} {j k' : Nat} {e' : Handle} {d g l : Nat} {im : Bool} (R : c.RF j k' e' d g l im) (h : c.start op = some c') :
    c'.RF j k' e' d g l im := by
  obtain ⟨cl, hj, hm, hc⟩ := R.call
  have hlen := start_len (.of h)
  refine ⟨Nat.lt_of_lt_of_le R.len hlen, cl, start_calls_old h hj, fun m h => Nat.lt_of_lt_of_le (hm m h) hlen, fun b hk => ?_⟩
  obtain ⟨⟨e2, b2⟩, h1, h2⟩ := start_get_back h R.len hk
  obtain rfl : e2 = e' := h2
  obtain ⟨h3, h4, h5⟩ := hc b2 h1
  refine ⟨h3, h4, fun m hmo e he => ?_⟩
  obtain ⟨e2, h6, h7⟩ := start_get_back h (hm m hmo) he
  rw [← h7]; exact h5 m hmo e2 h6

theorem Conf.RF.write {e : Ent} {i : Nat} {x : α} {j k' : Nat} {e' : Handle} {d g l : Nat} {im : Bool} (R : c.RF j k' e' d g l im) (h : c.write e i x = .ok c') :
    c'.RF j k' e' d g l im := by
  rcases Conf.write_cases h with rfl | ⟨b, i0, rfl⟩
  · exact R
  · exact ⟨R.len, R.call⟩

end Verif.Arc

import Verif.Arc.Values
import Verif.Arc.Proofs.Threads
import Verif.Arc.Proofs.Race6
/-!
# The items that handles read: calls in flight
-/

namespace Verif.Arc
open Verif.Spec (Side Slot Rng End)
open Verif.Rc
variable {α : Type} {P : Rules α} {zst : Bool} {c c0 c1 c2 c' : Conf α} {W : Nat → Nat → Prop} {M : Conf α → Nat → Prop}

/-! ## What a call in flight holds is not accessible to others -/

/-- The call has an `Arc` of data that covers the item, or the item itself. -/
def Call.Holds (c : Conf α) (cl : Call α) (b j : Nat) : Prop :=
  (∃ y v, .ref y ∈ pcT cl.pc ∧ c.a.b.sk.node y = some (.data v) ∧ 0 < v.span.num b j) ∨ 0 < owners (aG (pcT cl.pc)) b j

theorem hold_excl (A : c.IA true) {i : Nat} {cl : Call α} (hi : c.calls[i]? = some cl) {b j : Nat} (h : cl.Holds c b j) {k : Nat}
    (hk : c.Exclusive k) : ¬ c.Shows k b j := by
  rintro ⟨⟨hh, m⟩, off, len, hg, hr, i1, i2⟩
  obtain ⟨e', hg', hw⟩ := hk
  rw [hg] at hg'; cases hg'
  have B := A.bi
  have I := B.heap.perm (Conf.T_perm hi)
  have hn := Rc.num_le_one (c.a.b.slot b j)
  rw [← I.good.ledger.o b j] at hn
  simp only [aG_append, owners_append, callT] at hn
  have lt : ∀ {y : Nat} {n : Rc.Node}, c.a.b.sk.node y = some n → y < c.a.b.sk.next := fun h => B.heap.good.ledger.lt h
  have own : ∀ {d v}, c.a.b.sk.node d = some (.data v) → 0 < v.span.num b j →
      ∃ y u, c.a.b.sk.node y = some (.data u) ∧ (c.a.b.sk.lab d).up (c.a.b.sk.lab y) ∧ 0 < owners (Rc.Node.data u).spans b j := by
    intro d v hd hv
    obtain ⟨h1, h2, h3⟩ := num_pos.1 hv
    obtain ⟨y, u, hy, hu, ho⟩ := B.heap.good.owner hd (j := j) h2 h3
    exact ⟨y, u, hy, hu, by rw [← h1]; exact ho⟩
  cases hh with
  | weak d g => cases hr
  | uniq r =>
    simp only [Conf.range, Except.ok.injEq, Option.some.injEq, Prod.mk.injEq] at hr
    obtain ⟨rfl, rfl, rfl⟩ := hr
    have o1 : 0 < owners (aG (c.rest i)) r.buf j := by
      refine aG_sub (A := entT ⟨.uniq r, m⟩) (fun t ht => Conf.get_tok hg i ht) ?_
      simp [entT, AT.G, Rc.Span.num, Rc.Reg.span, i1, i2]
    rcases h with ⟨y, v, _, hy, hv⟩ | h
    · obtain ⟨y', u, hy', _, ho⟩ := own hy hv
      have := Rc.nsum_le hy' (lt hy') (fun n => owners n.spans r.buf j)
      omega
    · omega
  | strong d g =>
    simp only [Conf.writable] at hw
    subst hw
    obtain ⟨v, e1, e2⟩ := Arc.bind_ok hr
    cases pure_ok e2
    have hd := getData_some e1
    have hv : 0 < v.span.num v.buf j := num_pos.2 ⟨rfl, i1, i2⟩
    obtain ⟨y1, u1, hy1, hu1, ho1⟩ := own hd hv
    have n1 := Rc.nsum_le hy1 (lt hy1) (fun n => owners n.spans v.buf j)
    rcases h with ⟨y, w, hyT, hy, hw⟩ | h
    · obtain ⟨y2, u2, hy2, hu2, ho2⟩ := own hy hw
      have X := A.ph.ent rfl k d g hg
      have S := B.heap.good.shape
      have hyC : .ref y ∈ callT cl := List.mem_append_right _ hyT
      have same : c.a.b.sk.lab y = c.a.b.sk.lab d → False := by
        intro he
        cases S.toDShape.dataUniq y w d v hy hd he
        exact excl_call X hi hyC k g true hg
      by_cases e : y1 = y2
      · subst e
        rcases Rc.Lab.up_comparable hu1 hu2 with hu | hu
        · exact same (X.desc y (Conf.call_tok hi hyC) (S.toBase.kinds _ _ hy) hu)
        · by_cases e : c.a.b.sk.lab y = c.a.b.sk.lab d
          · exact same e
          · obtain ⟨q, u, s, hq, hs, _⟩ := parent_live S.toDShape hy hd hu e
            exact X.link q u s hq hs
      · have := Rc.nsum_le2 hy1 (lt hy1) hy2 (lt hy2) e (fun n => owners n.spans v.buf j)
        omega
    · omega

/-! ## A call on its way holds all it is going to return -/

def Seen.Has (b j : Nat) : Seen → Prop
  | .shared b' o l | .uniq b' o l => b' = b ∧ o ≤ j ∧ j < o + l
  | .weak _ => False

/-- The item that `next` or `next_back` has moved out, in terms of what is left. -/
def Out (op : Op α) (r : Res α) (vs : List Seen) (b j : Nat) : Prop :=
  ∃ x o l k, r = .item x ∧ vs = [.uniq b o l] ∧ ((op = .next .front k ∧ j + 1 = o) ∨ (op = .next .back k ∧ j = o + l))

/-- Everything in `R` includes all items in `t`, but for the one moved out. `upgrade` may as well return nothing. -/
def Covers (op : Op α) (t : Nat → Nat → Prop) (R : (Nat → Nat → Slot α) → Res α → List Seen → Prop) : Prop :=
  ∀ s r vs, R s r vs → (op.drops = true ∧ vs = []) ∨ ∀ b j, t b j → (∃ v ∈ vs, v.Has b j) ∨ Out op r vs b j

variable {R : (Nat → Nat → Slot α) → Res α → List Seen → Prop} {t : Nat → Nat → Prop}

theorem Covers.plain {op : Op α} (hc : Covers op t R) {s : Nat → Nat → Slot α} {r : Res α} {vs : List Seen} (h : R s r vs) (hv : vs ≠ []) (hr : ∀ x, r ≠ .item x)
    {b j : Nat} (ht : t b j) : ∃ v ∈ vs, v.Has b j := by
  rcases hc s r vs h with h | h
  · exact absurd h.2 hv
  rcases h b j ht with h | ⟨x, _, _, _, h, _⟩
  · exact h
  · exact absurd h (hr x)

theorem sum_pos_mem {β : Type} {f : β → Nat} : ∀ {l : List β}, 0 < (l.map f).sum → ∃ x ∈ l, 0 < f x
  | [], h => by simp at h
  | x :: l, h => by
    by_cases h8 : 0 < f x
    · exact ⟨x, by simp, h8⟩
    · simp only [List.map_cons, List.sum_cons] at h
      obtain ⟨y, k3, k4⟩ := sum_pos_mem (l := l) (f := f) (by omega)
      exact ⟨y, by simp [k3], k4⟩

/-- Where calls are that have what they are going to return. -/
def _root_.Verif.Arc.Pc.has : Pc α → Bool
  | .new _ | .mutNew _ | .cl1 _ _ | .cl2 _ _ | .wait _ _ _ | .cs _ _ | .csInc _ | .csNew _ _ | .csCas _ _ _ | .csLose _ _ | .dg0 _ _ | .dg1 _ _
  | .up _ | .wc _ _ | .wd _ => false
  | _ => true

theorem pstep_has {a a' : Arena α} {pc : Pc α} {n : Next α} (e : PStep a pc a' n) (h : pc.has = true) : n.pc.has = true := by
  cases e <;> first | rfl | cases h

theorem lds_holds (B : c.BI) {i : Nat} {cl : Call α} (hi : c.calls[i]? = some cl) (hn : nxtOp cl) (hc : Covers cl.op t R)
    (h : Lds W R c.a cl.pc) (hd : cl.pc.isDone = false) (hh : cl.pc.has = true) {b j : Nat} (ht : t b j) :
    cl.Holds c b j := by
  have hp := (B.calls i cl hi).1
  have reg : ∀ {r : Reg}, .reg r ∈ pcT cl.pc → (b = r.buf ∧ r.off ≤ j ∧ j < r.off + r.len) → cl.Holds c b j := by
    rintro r hr ⟨rfl, k1, k2⟩
    exact .inr (owners_pos (mem_aG hr (x := r.span) (by simp [AT.G])) (g := r.span) k1 k2)
  have ref : ∀ {d b' o l}, .ref d ∈ pcT cl.pc → At c.a d b' o l → Seen.Has b j (.shared b' o l) → cl.Holds c b j := by
    rintro d b' o l hr ha ⟨rfl, k1, k2⟩
    obtain ⟨v, hv⟩ := B.heap.data (ref_mem_aS (Conf.call_tok hi (List.mem_append_right _ hr))) ha.kind
    obtain ⟨e1, e2, e3⟩ := ha.is v hv
    refine .inl ⟨d, v, hr, hv, num_pos.2 ⟨e1, ?_, ?_⟩⟩
    · show v.off ≤ j; omega
    · show j < v.off + v.len; omega
  have one : ∀ {s r v}, R s r [v] → (∀ x, r ≠ .item x) → v.Has b j := by
    intro s r v hR hr
    obtain ⟨v', hm, hv⟩ := hc.plain hR (by simp) hr ht
    simp at hm; subst hm; exact hv
  have im : ∀ {r : Reg} {acc todo}, ImOK c.a.b.sk r acc todo → (∀ x ∈ acc, .own x ∈ pcT cl.pc) → (∀ d, .kid d ∈ todo → .ref d ∈ pcT cl.pc) →
      Seen.Has b j (.uniq r.buf r.off r.len) → cl.Holds c b j := by
    rintro r acc todo ⟨_, _, h3⟩ ha hk ⟨rfl, k1, k2⟩
    have h4 := h3 r.buf j
    have h5 : r.span.num r.buf j = 1 := by simp [Span.num, Reg.span, k1, k2]
    by_cases h6 : 0 < owners acc r.buf j
    · obtain ⟨g, g1, g2, g3, g4⟩ := owners_pos' h6
      refine .inr ?_
      rw [← g2]
      exact owners_pos (mem_aG (ha g g1) (x := g) (by simp [AT.G])) g3 g4
    · have h7 : 0 < (todo.map (fgNum c.a.b.sk r.buf j)).sum := by omega
      obtain ⟨f, f1, f2⟩ := sum_pos_mem h7
      cases f with
      | val w => simp [fgNum] at f2
      | kid d =>
        simp only [fgNum] at f2
        split at f2
        · next v hv => exact .inl ⟨d, v, hk d f1, hv, f2⟩
        · cases f2
  cases hpc : cl.pc with
  | done r => rw [hpc] at hd; cases hd
  | immut r =>
    rw [hpc] at h
    obtain ⟨e1, e2, e3⟩ := one h (by simp)
    exact reg (r := r) (by simp [hpc, pcT]) ⟨e1.symm, e2, e3⟩
  | split s r =>
    rw [hpc] at h
    obtain ⟨v, hm, hv⟩ := hc.plain h (by simp) (by simp) ht
    refine reg (r := r) (by simp [hpc, pcT]) ?_
    simp only [List.mem_cons, List.not_mem_nil, or_false] at hm
    rcases hm with rfl | rfl <;> cases s <;> simp only [Seen.Has, Seen.half, Side.flip, Rng.half, Rng.left, Rng.right] at hv <;>
      refine ⟨hv.1.symm, ?_, ?_⟩ <;> omega
  | nxt en r =>
    simp only [nxtOp, hpc] at hn
    obtain ⟨k, hn⟩ := hn
    rw [hpc] at h
    refine reg (r := r) (by simp [hpc, pcT]) ?_
    have h0 : 0 < r.len := by
      refine Nat.pos_of_ne_zero fun h0 => ?_
      have := one (v := .uniq r.buf r.off 0) (s := c.a.b.slot) (r := .none) (by cases en <;> exact h.1 h0) (by simp)
      obtain ⟨_, e2, e3⟩ := this; omega
    cases en with
    | front =>
      obtain ⟨x, _, h3⟩ := h.2 h0
      rcases (hc _ _ _ (h3 x c.a.b.slot (.inr rfl))).elim (fun h => absurd h.2 (by simp)) id b j ht with ⟨v, hm, hv⟩ | ⟨x', o, l, k', e1, e2, e3⟩
      · simp at hm; subst hm
        obtain ⟨e1, e2, e3⟩ := hv
        exact ⟨e1.symm, by omega, by omega⟩
      · simp only [List.cons.injEq, Seen.uniq.injEq, and_true] at e2
        rcases e3 with ⟨_, e3⟩ | ⟨e3, _⟩
        · exact ⟨e2.1.symm, by omega, by omega⟩
        · rw [hn] at e3; cases e3
    | back =>
      obtain ⟨x, _, h3⟩ := h.2 h0
      rcases (hc _ _ _ (h3 x c.a.b.slot (.inr rfl))).elim (fun h => absurd h.2 (by simp)) id b j ht with ⟨v, hm, hv⟩ | ⟨x', o, l, k', e1, e2, e3⟩
      · simp at hm; subst hm
        obtain ⟨e1, e2, e3⟩ := hv
        exact ⟨e1.symm, by omega, by omega⟩
      · simp only [List.cons.injEq, Seen.uniq.injEq, and_true] at e2
        rcases e3 with ⟨e3, _⟩ | ⟨_, e3⟩
        · rw [hn] at e3; cases e3
        · exact ⟨e2.1.symm, by omega, by omega⟩
  | cut en n r =>
    rw [hpc] at h
    refine reg (r := r) (by simp [hpc, pcT]) ?_
    by_cases h0 : n ≤ r.len
    · cases en <;>
      · obtain ⟨v, hm, hv⟩ := hc.plain (h.1 h0) (by simp) (by simp) ht
        simp only [List.mem_cons, List.not_mem_nil, or_false] at hm
        rcases hm with rfl | rfl <;> obtain ⟨e1, e2, e3⟩ := hv <;> exact ⟨e1.symm, by omega, by omega⟩
    · have : R c.a.b.slot .panic [.uniq r.buf r.off r.len] := by cases en <;> exact h.2 (by omega)
      obtain ⟨e1, e2, e3⟩ := one this (by simp)
      exact ⟨e1.symm, e2, e3⟩
  | gLoad _ _ d | gTry _ _ _ _ d | gPar _ _ _ d | gCas _ _ _ _ d | gRet _ _ d =>
    rw [hpc] at h
    obtain ⟨b', o, l, e1, e2⟩ := h
    exact ref (d := d) (by simp [hpc, pcT]) e1 (one e2 (by simp))
  | gm0 d | gm1 d | gm2 d | gm3 d | gm4 d | gmOpenC d | gmOpenD d =>
    rw [hpc] at h
    obtain ⟨b', o, l, e1, e2, _⟩ := h
    exact ref (d := d) (by simp [hpc, pcT]) e1 (one e2 (by simp))
  | im0 d | im1 d | im2 d | imOpen d =>
    rw [hpc] at h
    obtain ⟨b', o, l, e1, _, e2⟩ := h
    exact ref (d := d) (by simp [hpc, pcT]) e1 (one e2 (by simp))
  | imFg todo g r acc =>
    rw [hpc] at h hp
    exact im (r := r) (acc := acc) (todo := todo) hp (fun x hx => by simp [hpc, pcT, hx])
      (fun d hd => by rw [hpc]; simp only [pcT]; exact List.mem_cons_of_mem _ (List.mem_cons_of_mem _ (List.mem_append_right _ (List.mem_map.2 ⟨_, hd, rfl⟩))))
      (one h (by simp))
  | imGate g r acc =>
    rw [hpc] at h hp
    exact im (r := r) (acc := acc) (todo := []) hp (fun x hx => by simp [hpc, pcT, hx]) (fun d hd => by cases hd) (one h (by simp))
  | imOk r acc =>
    rw [hpc] at h hp
    exact im (r := r) (acc := acc) (todo := []) hp (fun x hx => by simp [hpc, pcT, hx]) (fun d hd => by cases hd) (one h (by simp))
  | new | mutNew | cl1 | cl2 | wait | dg0 | dg1 | wc | wd | cs | up | csInc | csLose | csNew | csCas => rw [hpc] at hh; cases hh

/-! ## Others do not write to what a call holds or has returned -/

/-- If the call has returned, its handles show all items in `t`, except for those that have been moved out. -/
def Kept' (t : Nat → Nat → Prop) (c : Conf α) (cl : Call α) : Prop := cl.pc.isDone = true → ∃ vs m, cl.out = List.range' m vs.length ∧ Shown c m vs ∧
  ∀ b j, t b j → (∃ v ∈ vs, v.Has b j) ∨ c.a.b.slot b j = .moved

structure Sealed (P : Rules α) (M : Conf α → Nat → Prop) (t : Nat → Nat → Prop) (i : Nat) (c0 c : Conf α) : Prop where
  run : PRun (Others P M) (fun b j => ¬ t b j) c0 c
  call : ∃ cl, c.calls[i]? = some cl ∧ cl.pc.has = true ∧ Kept' t c cl

theorem SEvo.moved {s s' : Nat → Nat → Slot α} (e : SEvo (fun b j => ¬ t b j) s s') {b j : Nat} (ht : t b j) (h : s b j = .moved) : s' b j = .moved := by
  rcases e b j with e | ⟨e, _⟩ | ⟨y, e, _⟩ | ⟨e, _⟩
  · rw [e]; exact h
  · rw [h] at e; cases e
  · rw [h] at e; cases e
  · exact absurd ht e

theorem Kept'.ev (B : Base c.a.b.sk) (ev : Evol (fun b j => ¬ t b j) c c') {cl : Call α} (h : Kept' t c cl) : Kept' t c' cl := by
  intro hd
  obtain ⟨vs, m, h1, h2, h3⟩ := h hd
  refine ⟨vs, m, h1, h2.ev B ev, fun b j ht => (h3 b j ht).imp id fun h4 => ?_⟩
  exact ev.slot.moved ht h4

/-- Where items come from that are returned. -/
theorem pstep_item {a a' : Arena α} {pc : Pc α} {n : Next α} (e : PStep a pc a' n) (hd : pc.isDone = false) {x : α} (h : n.pc = .done (.item x)) :
    ∃ en r r', pc = .nxt en r ∧ n.push = [⟨.uniq r', false⟩] ∧ r'.buf = r.buf ∧ 0 < r.len ∧ match en with
      | .front => r'.off = r.off + 1 ∧ r'.len = r.len - 1 ∧ a'.b.slot r.buf r.off = .moved
      | .back => r'.off = r.off ∧ r'.len = r.len - 1 ∧ a'.b.slot r.buf (r.off + r.len - 1) = .moved := by
  cases e with
  | done r => cases hd
  | nxt en r h1 o r' ts re hre e =>
    refine ⟨en, r, r', rfl, rfl, ?_⟩
    have h : re = .item x := by cases h; rfl
    rw [h] at hre
    simp only [iterNext] at e
    split at e
    · cases e; cases hre
    · next h0 =>
      split at e
      · cases e
      · split at e
        · cases en <;> dsimp only at e <;> split at e <;> cases e <;>
            exact ⟨rfl, by omega, rfl, rfl, by simp [Arena.withB, Heap.setSlot, upd]⟩
        · cases e
  | gmOpenD d g ok v hv => cases ok <;> cases h
  | _ => cases h

theorem Kept'.step (hP : PTame P) (hr : Conf.PReach P zst c) {i n : Nat} {op : Op α} (hR : Mono (fun b j => ¬ t b j) R) (hc : Covers op t R)
    (w : Will (fun b j => ¬ t b j) R n i op c) (e : c.step i = .ok c') {cl cl' : Call α} (hi : c.calls[i]? = some cl) (hi' : c'.calls[i]? = some cl')
    (h : Kept' t c cl) : (op.drops = true ∧ cl'.pc.isDone = true ∧ cl'.out = []) ∨ Kept' t c' cl' := by
  have B := hr.BI hP
  have ev : Evol (fun b j => ¬ t b j) c c' := .step hP hr e
  have hlen := (List.getElem?_eq_some_iff.1 hi).1
  have w' := w.step hR hP hr e
  cases CStep.of e with
  | none h => rw [hi] at h; cases h
  | task cl2 tk ts a' new hi2 ht e2 =>
    rw [hi] at hi2; cases hi2
    have h3 : (c.calls.set i _)[i]? = some cl' := hi'
    rw [List.getElem?_set_self hlen] at h3; cases h3
    refine .inr fun hd => ?_
    obtain ⟨vs, m, h1, h2, h3⟩ := h hd
    exact ⟨vs, m, by simp [h1], h2.ev B.heap.base ev, fun b j ht => (h3 b j ht).imp id fun h4 => ev.slot.moved ht h4⟩
  | pc cl2 a' nx hi2 ht e2 =>
    rw [hi] at hi2; cases hi2
    have h3 : (c.calls.set i _)[i]? = some cl' := hi'
    rw [List.getElem?_set_self hlen] at h3; cases h3
    obtain ⟨_, cl1, h1, h2, h3⟩ := w
    rw [hi] at h1; cases h1
    obtain ⟨_, cl3, k1, k2, k3⟩ := w'
    rw [hi'] at k1; cases k1
    rcases k3 with ⟨k3, _⟩ | ⟨r, vs, m, k3, k4, k5, k6, k7, k8⟩
    · exact .inr fun hd => by rw [hd] at k3; cases k3
    rcases hc _ _ _ k4 with ⟨hdr, rfl⟩ | hc'
    · exact .inl ⟨hdr, by rw [k3]; rfl, by simpa using k6⟩
    refine .inr fun hd => ?_
    rcases h3 with ⟨h3, h4, h5⟩ | ⟨r1, vs1, m1, h3, _⟩
    · refine ⟨vs, m, k6, k7, fun b j htj => ?_⟩
      rcases hc' b j htj with hv | ⟨x, o, l, k, rfl, rfl, ho⟩
      · exact .inl hv
      · refine .inr ?_
        obtain ⟨en, rg, rg', p1, p2, p3, p4, p5⟩ := pstep_item (.of e2) h3 k3
        have hno := hr.nxtOp hP i cl hi
        simp only [nxtOp, p1] at hno
        obtain ⟨k', hno⟩ := hno
        rw [h2] at hno
        have hm : m = c.hs.length := by
          simp only [p2, h4] at k6
          simpa using k6.symm
        have hg : (c.after i a' { cl with pc := nx.pc, tasks := nx.tasks } nx.push).get m = some ⟨.uniq rg', false⟩ := by
          simp only [Conf.get, Conf.after, hm, p2]
          simp
        obtain ⟨g1, g2, g3⟩ : rg'.buf = b ∧ rg'.off = o ∧ rg'.len = l := k7.2 0 _ rfl _ hg
        rcases ho with ⟨ho, hj⟩ | ⟨ho, hj⟩
        · rw [ho] at hno; cases hno
          obtain ⟨q1, q2, q3⟩ := p5
          have : j = rg.off := by omega
          rw [← g1, p3, this]; exact q3
        · rw [ho] at hno; cases hno
          obtain ⟨q1, q2, q3⟩ := p5
          have : j = rg.off + rg.len - 1 := by omega
          rw [← g1, p3, this]; exact q3
    · rw [h3] at e2; cases e2
      obtain ⟨vs, m, h1, h2, h3⟩ := h (by rw [h3]; rfl)
      exact ⟨vs, m, by simp [h1], h2.ev B.heap.base ev, fun b j ht => (h3 b j ht).imp id fun h4 => ev.slot.moved ht h4⟩

theorem shows_of_sees {k : Nat} {v : Seen} (h : c.Sees k v) {b j : Nat} (hj : v.Has b j) : c.Shows k b j := by
  obtain ⟨⟨hh, m⟩, h1, h2⟩ := h
  cases hh with
  | strong d g =>
    simp only [Conf.seen] at h2
    split at h2
    · next w hw =>
      cases h2
      obtain ⟨rfl, h3, h4⟩ := hj
      exact ⟨_, _, _, h1, by simp [Conf.range, hw, bind, Except.bind, pure, Except.pure], h3, h4⟩
    · cases h2
  | weak d g => cases h2; cases hj
  | uniq r => cases h2; obtain ⟨rfl, h3, h4⟩ := hj; exact ⟨_, _, _, h1, rfl, h3, h4⟩

theorem sees_of_shows {k : Nat} {v : Seen} (h : c.Sees k v) {b j : Nat} (hj : c.Shows k b j) : v.Has b j := by
  obtain ⟨⟨hh, m⟩, h1, h2⟩ := h
  obtain ⟨e, off, len, h3, h4, h5, h6⟩ := hj
  rw [h1] at h3; cases h3
  cases hh with
  | strong d g =>
    obtain ⟨w, e1, e2⟩ := Arc.bind_ok h4
    cases pure_ok e2
    simp only [Conf.seen, e1] at h2
    cases h2; exact ⟨rfl, h5, h6⟩
  | weak d g => cases h4
  | uniq r => cases h2; cases h4; exact ⟨rfl, h5, h6⟩

theorem Apart.others (ap : Apart P M c0 c) : PRun (Others P M) (fun _ _ => True) c0 c := by
  induction ap with
  | refl => exact .refl
  | step r i e ih => exact ih.step i e
  | start r op hp hM e ih => exact ih.start op ⟨hp, hM⟩ e
  | write r k en j x hk hw hM e ih => exact ih.write k en j x hk hw (fun _ _ _ _ _ => trivial) e
  | panic r i e ih => exact ih.panic i e

theorem Apart.reach (ap : Apart P M c0 c) (h : Conf.PReach P zst c0) : Conf.PReach P zst c := ap.others.others.reach h

/-- The call has returned, and has returned no handle. -/
def Gone (i : Nat) (c : Conf α) : Prop := ∃ cl, c.calls[i]? = some cl ∧ cl.pc.isDone = true ∧ cl.out = []

theorem Gone.start {i : Nat} {op : Op α} (h : Gone i c) (e : c.start op = some c') : Gone i c' := by
  obtain ⟨cl, h1, h2⟩ := h
  exact ⟨cl, start_calls_old e h1, h2⟩

theorem Gone.write {i j : Nat} {en : Ent} {x : α} (h : Gone i c) (e : c.write en j x = .ok c') : Gone i c' := by
  rcases Conf.write_cases e with rfl | ⟨b, i, rfl⟩ <;> exact h

theorem Gone.step {i j : Nat} (h : Gone i c) (e : c.step j = .ok c') : Gone i c' := by
  obtain ⟨cl, h1, h2, h3⟩ := h
  by_cases hj : j = i
  · subst hj
    have hlen := (List.getElem?_eq_some_iff.1 h1).1
    cases CStep.of e with
    | none h => rw [h1] at h; cases h
    | task cl2 tk ts a' new hi2 ht e2 =>
      rw [h1] at hi2; cases hi2
      exact ⟨_, List.getElem?_set_self hlen, h2, by simp [h3]⟩
    | pc cl2 a' nx hi2 ht e2 =>
      rw [h1] at hi2; cases hi2
      cases hpc : cl.pc <;> rw [hpc] at h2 <;> first | (cases h2; done) | skip
      rw [hpc] at e2; cases e2
      exact ⟨_, List.getElem?_set_self hlen, rfl, by simp [h3]⟩
  · refine ⟨cl, ?_, h2, h3⟩
    rw [← h1]
    cases CStep.of e with
    | none _ => rfl
    | task => simp only [Conf.after]; rw [List.getElem?_set_ne hj]
    | pc => simp only [Conf.after]; rw [List.getElem?_set_ne hj]

theorem Gone.panic (hP : PTame P) (hr : Conf.PReach P zst c) {i j : Nat} (h : Gone i c) (e : c.panic j = some c') : Gone i c' := by
  obtain ⟨cl, h1, h2, h3⟩ := h
  obtain ⟨cl2, rg, ts, ts', us, s, p⟩ := Panicked.of (hr.BI hP).heap e
  by_cases hj : j = i
  · subst hj
    have hc := p.call
    rw [h1] at hc; cases hc
    have h4 : c'.calls[j]? = some { cl with pc := .done .panic, tasks := .base (.dropReg rg) :: (ts' ++ us) } := by
      rw [p.eq]; exact List.getElem?_set_self (List.getElem?_eq_some_iff.1 h1).1
    exact ⟨_, h4, rfl, h3⟩
  · exact ⟨cl, by rw [p.eq]; exact (List.getElem?_set_ne hj).trans h1, h2, h3⟩

theorem Apart.sealed' (hP : PStrict P) (hr : Conf.PReach P zst c0) {i n : Nat} {op : Op α} (hR : Mono (fun b j => ¬ t b j) R) (hc : Covers op t R)
    (hpn : op.drops = true → ∀ s, R s .panic []) (w : Will (fun b j => ¬ t b j) R n i op c0) (hM : ∀ c k, c.outOf i k → M c k)
    {cl0 : Call α} (hi : c0.calls[i]? = some cl0) (hb : cl0.pc.has = true) (h3 : Kept' t c0 cl0)
    (h4 : ∀ k ∈ cl0.out, ∃ v, c0.Sees k v) (ap : Apart P M c0 c) : (op.drops = true ∧ Gone i c) ∨ Sealed P M t i c0 c := by
  have hT := hP.tame
  induction ap with
  | refl => exact .inr ⟨.refl, cl0, hi, hb, h3⟩
  | @step c c' r j e ih =>
    rcases ih with ⟨hg1, hg2⟩ | ih
    · exact .inl ⟨hg1, hg2.step e⟩
    have hrc := ih.run.others.reach hr
    have wc := w.run hR hpn hT hr ih.run.others
    obtain ⟨cl, k1, k2, k5⟩ := ih.call
    have B := hrc.BI hT
    by_cases hj : j = i
    · subst hj
      have hlen := (List.getElem?_eq_some_iff.1 k1).1
      have k5' := fun cl' hi' => k5.step hT hrc hR hc wc e (cl' := cl') k1 hi'
      cases CStep.of e with
      | none h => rw [k1] at h; cases h
      | task cl2 tk ts a' new hi2 ht e2 =>
        rw [k1] at hi2; cases hi2
        have hi' := List.getElem?_set_self (a := { cl with tasks := new ++ ts, out := cl.out ++ [] }) hlen
        exact (k5' _ hi').imp (fun h => ⟨h.1, _, hi', h.2⟩) fun h => ⟨ih.run.step j e, _, hi', k2, h⟩
      | pc cl2 a' nx hi2 ht e2 =>
        rw [k1] at hi2; cases hi2
        have hi' := List.getElem?_set_self (a := { cl with pc := nx.pc, tasks := nx.tasks, out := cl.out ++ List.range' c.hs.length nx.push.length }) hlen
        exact (k5' _ hi').imp (fun h => ⟨h.1, _, hi', h.2⟩) fun h => ⟨ih.run.step j e, _, hi', pstep_has (PStep.of e2) k2, h⟩
    · refine .inr ⟨ih.run.step j e, cl, ?_, k2, k5.ev B.heap.base (.step hT hrc e)⟩
      rw [← k1]
      cases CStep.of e with
      | none _ => rfl
      | task => simp only [Conf.after]; rw [List.getElem?_set_ne hj]
      | pc => simp only [Conf.after]; rw [List.getElem?_set_ne hj]
  | @start c c' r op' hp hM' e ih =>
    rcases ih with ⟨hg1, hg2⟩ | ih
    · exact .inl ⟨hg1, hg2.start e⟩
    have hrc := ih.run.others.reach hr
    obtain ⟨cl, k1, k2, k5⟩ := ih.call
    have B := hrc.BI hT
    exact .inr ⟨ih.run.start op' ⟨hp, hM'⟩ e, cl, start_calls_old e k1, k2, k5.ev B.heap.base (.start B.heap.base e)⟩
  | @write c c' r k en j x hk hw hM' e ih =>
    rcases ih with ⟨hg1, hg2⟩ | ih
    · exact .inl ⟨hg1, hg2.write e⟩
    have hrc := ih.run.others.reach hr
    have wc := w.run hR hpn hT hr ih.run.others
    obtain ⟨cl, k1, k2, k5⟩ := ih.call
    have B := hrc.BI hT
    have A := hrc.IA hP
    have hW : ∀ b off len, Conf.range c.a en.h = .ok (some (b, off, len)) → j < len → ¬ t b (off + j) := by
      intro b off len hrg hj ht
      have hsh : c.Shows k b (off + j) := ⟨en, off, len, hk, hrg, by omega, by omega⟩
      obtain ⟨_, cl2, q1, q2, q3⟩ := wc
      rw [k1] at q1; cases q1
      subst q2
      rcases q3 with ⟨q3, _, q4⟩ | ⟨r, vs, m, q3, _⟩
      · exact hold_excl A k1 (lds_holds B k1 (hrc.nxtOp hT i cl k1) hc q4 q3 k2 ht) ⟨en, hk, hw⟩ hsh
      · obtain ⟨vs, m, o1, o2, o3⟩ := k5 (by rw [q3]; rfl)
        rcases o3 b _ ht with ⟨v, hv, hvj⟩ | h4
        · obtain ⟨idx, hidx⟩ := List.getElem?_of_mem hv
          have hl := (List.getElem?_eq_some_iff.1 hidx).1
          have hout : c.outOf i (m + idx) := ⟨cl, k1, by rw [o1]; exact List.mem_range'_1.2 ⟨by omega, by omega⟩⟩
          obtain ⟨v', e', he', hse⟩ := ih.run.outs hT hr hM (fun k ⟨cl', l1, l2⟩ => by rw [hi] at l1; cases l1; exact h4 k l2)
            (List.getElem?_eq_some_iff.1 hi).1 _ hout
          have hs := seen_good B he' (o2.2 idx v hidx e' he')
          have := exclusive A ⟨en, hk, hw⟩ hsh (shows_of_sees ⟨e', he', hs⟩ hvj)
          exact hM' (hM c k (this ▸ hout))
        · obtain ⟨⟨y, hy⟩, _⟩ := C53_shown_is_there hT hrc hsh
          rw [h4] at hy; cases hy
    refine .inr ⟨ih.run.write k en j x hk hw hW e, cl, ?_, k2, k5.ev B.heap.base (.write B.heap.base hW e)⟩
    rcases Conf.write_cases e with rfl | ⟨b, i, rfl⟩ <;> exact k1
  | @panic c c' r j e ih =>
    rcases ih with ⟨hg1, hg2⟩ | ih
    · exact .inl ⟨hg1, hg2.panic hT (r.reach hr) e⟩
    have hrc := ih.run.others.reach hr
    have wc := w.run hR hpn hT hr ih.run.others
    obtain ⟨cl, k1, k2, k5⟩ := ih.call
    have B := hrc.BI hT
    obtain ⟨cl2, rg, ts, ts', us, s, p⟩ := Panicked.of B.heap e
    by_cases hj : j = i
    · subst hj
      obtain ⟨_, cl3, q1, q2, q3⟩ := wc
      rw [p.call] at q1; cases q1
      have hdr : op.drops = true := by
        rcases C54_where hT hrc p.call (by rw [p.tasks]; simp) with ⟨k, h4⟩ | ⟨k, h4⟩ <;> rw [← q2, h4] <;> rfl
      have h4 : c'.calls[j]? = some { cl2 with pc := .done .panic, tasks := .base (.dropReg rg) :: (ts' ++ us) } := by
        rw [p.eq]; exact List.getElem?_set_self (List.getElem?_eq_some_iff.1 p.call).1
      refine .inl ⟨hdr, _, h4, rfl, ?_⟩
      rcases q3 with ⟨_, q3, _⟩ | ⟨r, vs, m, _, _, _, q3, _, q4⟩
      · exact q3
      · rcases q4 hdr with rfl | h5
        · simpa using q3
        · rw [p.tasks] at h5; cases h5
    · exact .inr ⟨ih.run.panic j e, cl, by rw [p.eq]; exact (List.getElem?_set_ne hj).trans k1, k2, k5.ev B.heap.base (.panic hT hrc e)⟩

theorem Apart.sealed (hP : PStrict P) (hr : Conf.PReach P zst c0) {i n : Nat} {op : Op α} (hR : Mono (fun b j => ¬ t b j) R) (hc : Covers op t R)
    (hd : op.drops = false) (w : Will (fun b j => ¬ t b j) R n i op c0) (hM : ∀ c k, c.outOf i k → M c k)
    {cl0 : Call α} (hi : c0.calls[i]? = some cl0) (hb : cl0.pc.has = true) (h3 : Kept' t c0 cl0)
    (h4 : ∀ k ∈ cl0.out, ∃ v, c0.Sees k v) (ap : Apart P M c0 c) : Sealed P M t i c0 c := by
  rcases ap.sealed' hP hr hR hc (fun h => by rw [hd] at h; cases h) w hM hi hb h3 h4 with ⟨h, _⟩ | h
  · rw [hd] at h; cases h
  · exact h

end Verif.Arc

import Verif.Rc.Within
import Verif.Rc.Proofs.Bounds
/-!
# What a call does before it returns: proofs
-/

namespace Verif.Rc
open Verif.Spec (Side Slot Family Rng World Op Obs End)
variable {α : Type}

/-- Only guards, allocations and shared slice data are left to drop. -/
structure Calm (h : Heap α) (ts : List Task) : Prop where
  kinds : ∀ x n, h.sk.node x = some n → h.sk.kind x = n.kind
  imgPar : ∀ x v p, h.sk.node x = some (.img v) → v.parent = some p → h.sk.kind p ≠ .data
  imgGmg : ∀ x v, h.sk.node x = some (.img v) → h.sk.kind v.gmg ≠ .data
  gmgPar : ∀ x v p, h.sk.node x = some (.gmg v) → v.parent = some p → h.sk.kind p.1 ≠ .data
  dropS : ∀ x, .dropS x ∈ ts → h.sk.kind x = .data → ts.count (.dropS x) < h.strong x
  reg : ∀ r, .dropReg r ∈ ts → r.len = 0 ∧ ∀ a, r.alloc = some a → h.sk.kind a ≠ .data
  slice : ∀ d i, .dropRcSlice d i ∉ ts
  user : .userCode ∉ ts

theorem Shape.calm {h : Heap α} (S : Shape h.sk) {ts : List Task} (h1 : ∀ x, .dropS x ∈ ts → h.sk.kind x = .data → ts.count (.dropS x) < h.strong x)
    (h2 : ∀ r, .dropReg r ∈ ts → r.len = 0 ∧ ∀ a, r.alloc = some a → h.sk.kind a ≠ .data) (h3 : ∀ d i, .dropRcSlice d i ∉ ts) (h4 : .userCode ∉ ts) : Calm h ts where
  kinds := S.kinds
  imgPar x v p hx hp := by
    obtain ⟨_, _, w, hw⟩ := S.imgPar x v p hx hp
    rw [S.kinds _ _ hw]; simp [Node.kind]
  imgGmg x v hx := by
    obtain ⟨_, w, hw⟩ := S.imgGmg x v hx
    rw [S.kinds _ _ hw]; simp [Node.kind]
  gmgPar x v p hx hp := by
    obtain ⟨p, s⟩ := p
    obtain ⟨_, _, w, hw⟩ := S.gmgPar x v p s hx hp
    rw [S.kinds _ _ hw]; simp [Node.kind]
  dropS := h1
  reg := h2
  slice := h3
  user := h4

theorem decW_c {h h' : Heap α} {o : Option Nat} (e : h.decW o = .ok h') : h'.sk = h.sk ∧ h'.strong = h.strong ∧ h'.slot = h.slot := by
  cases o with
  | none => cases e; exact ⟨rfl, rfl, rfl⟩
  | some x =>
    simp only [Heap.decW] at e
    split at e <;> cases e
    exact ⟨rfl, rfl, rfl⟩

section
variable {h h' : Heap α} {ts new : List Task} {t : Task}

/-- The first drop is done, and leaves `new`. -/
theorem Calm.next (C : Calm h (t :: ts)) (hn : ∀ x n, h'.sk.node x = some n → h.sk.node x = some n) (hk : h'.sk.kind = h.sk.kind)
    (hs : ∀ x, h.sk.kind x = .data → .dropS x ∈ ts → ts.count (.dropS x) < h'.strong x)
    (hnew : ∀ t ∈ new, ∃ x, t = .dropS x ∧ h.sk.kind x ≠ .data) : Calm h' (new ++ ts) where
  kinds x n hx := by rw [hk]; exact C.kinds x n (hn x n hx)
  imgPar x v p hx hp := by rw [hk]; exact C.imgPar x v p (hn _ _ hx) hp
  imgGmg x v hx := by rw [hk]; exact C.imgGmg x v (hn _ _ hx)
  gmgPar x v p hx hp := by rw [hk]; exact C.gmgPar x v p (hn _ _ hx) hp
  dropS x hx hd := by
    rw [hk] at hd
    have h0 : .dropS x ∉ new := fun hm => by
      obtain ⟨y, hy, hy2⟩ := hnew _ hm
      cases hy
      exact hy2 hd
    rw [List.count_append, List.count_eq_zero.2 h0, Nat.zero_add]
    rcases List.mem_append.1 hx with hx | hx
    · exact absurd hx h0
    · exact hs x hd hx
  reg r hr := by
    rw [hk]
    rcases List.mem_append.1 hr with hr | hr
    · obtain ⟨y, hy, _⟩ := hnew _ hr; cases hy
    · exact C.reg r (List.mem_cons_of_mem _ hr)
  slice d i hr := by
    rcases List.mem_append.1 hr with hr | hr
    · obtain ⟨y, hy, _⟩ := hnew _ hr; cases hy
    · exact C.slice d i (List.mem_cons_of_mem _ hr)
  user hr := by
    rcases List.mem_append.1 hr with hr | hr
    · obtain ⟨y, hy, _⟩ := hnew _ hr; cases hy
    · exact C.user (List.mem_cons_of_mem _ hr)

theorem Calm.step (C : Calm h (t :: ts)) (e : taskStep h t = .ok (h', new)) : Calm h' (new ++ ts) ∧ h'.slot = h.slot := by
  have old : ∀ x, h.sk.kind x = .data → .dropS x ∈ ts → ts.count (.dropS x) < h.strong x := fun x hx hm => by
    have := C.dropS x (List.mem_cons_of_mem _ hm) hx
    exact Nat.lt_of_le_of_lt (List.count_le_count_cons ..) this
  cases t with
  | userCode => exact absurd (List.mem_cons_self ..) C.user
  | dropRcSlice d i => exact absurd (List.mem_cons_self ..) (C.slice d i)
  | dropReg r =>
    obtain ⟨h1, h2⟩ := C.reg r (List.mem_cons_self ..)
    simp only [taskStep] at e
    rw [if_pos h1] at e
    cases e
    refine ⟨C.next (fun _ _ h => h) rfl old fun t ht => ?_, rfl⟩
    obtain ⟨a, ha, rfl⟩ := List.mem_map.1 ht
    exact ⟨a, rfl, h2 a (by simpa using ha)⟩
  | dropS x =>
    have hx := C.dropS x (List.mem_cons_self ..)
    simp only [taskStep, dropStrong] at e
    split at e
    · cases e
    split at e
    · cases e
      refine ⟨C.next (fun _ _ h => h) rfl (fun y hy hm => ?_) (fun t ht => (by simp at ht)), rfl⟩
      show _ < upd h.strong x _ y
      by_cases hxy : y = x
      · subst hxy
        rw [upd_same]
        have := hx hy
        rw [List.count_cons_self] at this
        omega
      · rw [upd_ne _ _ hxy]; exact old y hy hm
    · next h1 =>
      have h1 : h.strong x = 1 := Decidable.not_not.1 h1
      have hnd : h.sk.kind x ≠ .data := fun hd => by
        have := hx hd
        rw [List.count_cons_self] at this
        omega
      have kn : ∀ y n, (h.kill x).sk.node y = some n → h.sk.node y = some n := fun y n hy => (upd_none_some hy).2
      have ks : ∀ y, h.sk.kind y = .data → .dropS y ∈ ts → ts.count (.dropS y) < (h.kill x).strong y := fun y hy hm => by
        have : y ≠ x := fun e => hnd (e ▸ hy)
        show _ < upd h.strong x _ y
        rw [upd_ne _ _ this]; exact old y hy hm
      split at e
      · cases e
      · next v hv => exact absurd (C.kinds _ _ hv) hnd
      · next v hv =>
        obtain ⟨h2, e2, e⟩ := okb e
        obtain ⟨h3, e3, e⟩ := okb e
        cases e
        obtain ⟨a1, a2, a3⟩ := decW_c e2
        obtain ⟨b1, b2, b3⟩ := decW_c e3
        refine ⟨C.next (by rw [b1, a1]; exact kn) (by rw [b1, a1]; rfl) (by rw [b2, a2]; exact ks) fun t ht => ?_, by rw [b3, a3]; rfl⟩
        rcases List.mem_append.1 ht with ht | ht
        · obtain ⟨p, hp, rfl⟩ := List.mem_map.1 ht
          exact ⟨p, rfl, C.imgPar x v p hv (by simpa using hp)⟩
        · exact ⟨v.gmg, by simpa using ht, C.imgGmg x v hv⟩
      · next v hv =>
        obtain ⟨h2, e2, e⟩ := okb e
        obtain ⟨h3, e3, e⟩ := okb e
        obtain ⟨h4, e4, e⟩ := okb e
        cases e
        obtain ⟨a1, a2, a3⟩ := decW_c e2
        obtain ⟨b1, b2, b3⟩ := decW_c e3
        obtain ⟨c1, c2, c3⟩ := decW_c e4
        refine ⟨C.next (by rw [c1, b1, a1]; exact kn) (by rw [c1, b1, a1]; rfl) (by rw [c2, b2, a2]; exact ks) fun t ht => ?_, by rw [c3, b3, a3]; rfl⟩
        obtain ⟨p, hp, rfl⟩ := List.mem_map.1 ht
        exact ⟨p.1, rfl, C.gmgPar x v p hv (by simpa using hp)⟩
      · next b hv =>
        split at e
        · cases e
          exact ⟨C.next kn rfl ks (fun t ht => (by simp at ht)), rfl⟩
        · split at e <;> cases e
          exact ⟨C.next kn rfl ks (fun t ht => (by simp at ht)), rfl⟩

theorem Calm.within (C : Calm h ts) {ts' : List Task} (w : Within h ts h' ts') : .userCode ∉ ts' ∧ h'.slot = h.slot := by
  induction w with
  | now h ts => exact ⟨C.user, rfl⟩
  | next e w ih =>
    obtain ⟨C', hs⟩ := C.step e
    obtain ⟨h1, h2⟩ := ih C'
    exact ⟨h1, h2.trans hs⟩

theorem Calm.nil (S : Shape h.sk) : Calm h [] := S.calm (by simp) (by simp) (by simp) (by simp)

theorem Calm.drops (S : Shape h.sk) (hk : ∀ t ∈ ts, ∃ x, t = .dropS x ∧ h.sk.kind x ≠ .data) : Calm h ts :=
  S.calm (fun x hx hd => by obtain ⟨y, e, hy⟩ := hk _ hx; cases e; exact absurd hd hy) (fun r hr => by obtain ⟨y, e, _⟩ := hk _ hr; cases e)
    (fun d i hr => by obtain ⟨y, e, _⟩ := hk _ hr; cases e) (fun hr => by obtain ⟨y, e, _⟩ := hk _ hr; cases e)

theorem Calm.drop1 (S : Shape h.sk) {x : Nat} (hk : h.sk.kind x ≠ .data) : Calm h [.dropS x] :=
  .drops S fun _ ht => ⟨x, List.mem_singleton.1 ht, hk⟩

/-- `RcSlice`s for both halves are there: the drop of the whole reaches no items. -/
theorem halves_calm {T : List Tok} {d i ld li rd ri len : Nat} (I : Inv h (.strong rd ri :: .strong ld li :: T)) (hd : .strong d i ∈ T)
    (hl : h.sk.lab ld = (h.sk.lab d).halfOf len .L) (hr : h.sk.lab rd = (h.sk.lab d).halfOf len .R) (e : taskStep h (.dropRcSlice d i) = .ok (h', new)) :
    Calm h' new ∧ h'.slot = h.slot := by
  have S := I.good.shape
  have L := I.good.ledger
  obtain ⟨v, vi, nd, ni, _⟩ := I.strong_live (List.mem_cons_of_mem _ (List.mem_cons_of_mem _ hd))
  obtain ⟨vl, _, nl, _⟩ := I.strong_live (d := ld) (i := li) (by simp)
  obtain ⟨vr, _, nr, _⟩ := I.strong_live (d := rd) (i := ri) (by simp)
  have ki : h.sk.kind i ≠ .data := by rw [S.kinds _ _ ni]; simp [Node.kind]
  have hdS : 0 < (Ss T).count d := List.count_pos_iff.2 (mem_Ss hd (y := d) (by simp [Tok.S]))
  have Ld := L.s d
  simp only [Ss_cons, Tok.S, List.count_append, List.count_cons, List.count_nil] at Ld
  simp only [taskStep] at e
  obtain ⟨⟨h1, ts1⟩, e1, e⟩ := okb e
  cases e
  simp only [dropStrong] at e1
  split at e1
  · cases e1
  split at e1
  · cases e1
    exact ⟨Calm.drop1 (h := { h with strong := upd h.strong d (h.strong d - 1) }) S ki, rfl⟩
  next h1 =>
  have h1 : h.strong d = 1 := Decidable.not_not.1 h1
  rw [nd] at e1
  cases e1
  have nld : ld ≠ d := fun he => by simp only [he, beq_self_eq_true, if_true] at Ld; omega
  have nrd : rd ≠ d := fun he => by simp only [he, beq_self_eq_true, if_true] at Ld; omega
  have half : ∀ {c w s}, h.sk.node c = some (.data w) → c ≠ d → h.sk.lab c = (h.sk.lab d).halfOf len s → v.kids s = some c ∧ h.sk.lab c = (h.sk.lab d).child s := by
    intro c w s nc hne hc
    simp only [Lab.halfOf] at hc
    split at hc
    · exact absurd (S.dataUniq _ _ _ _ nc nd hc) hne
    · have := S.dataDown d v c w s nd nc (hc ▸ ⟨rfl, List.suffix_refl _⟩)
      obtain ⟨c', hc'⟩ := Option.isSome_iff_exists.1 this
      obtain ⟨_, hl', w', hw'⟩ := S.dataKid d v s c' nd hc'
      rw [hc', S.dataUniq _ _ _ _ hw' nc (hl'.trans hc.symm)]
      exact ⟨rfl, hc⟩
  obtain ⟨k1, l1⟩ := half nl nld hl
  obtain ⟨k2, l2⟩ := half nr nrd hr
  have ne : ld ≠ rd := fun e => by
    rw [e, l2] at l1
    simp [Lab.child] at l1
  have shared : ∀ {c s}, v.kids s = some c → c ∈ Ss (.strong rd ri :: .strong ld li :: T) → 2 ≤ h.strong c := by
    intro c s hk hm
    have h1 := nsum_le nd (L.lt nd) (fun n => n.srefs.count c)
    have h2 : 0 < (Node.data v).srefs.count c := List.count_pos_iff.2 (by cases s <;> simp [Node.srefs, hk])
    have h3 := List.count_pos_iff.2 hm
    have h4 := L.s c
    omega
  have s1 := shared k1 (by simp [Tok.S])
  have s2 := shared k2 (by simp [Tok.S])
  have kk : ∀ x n, (h.kill d).sk.node x = some n → h.sk.node x = some n := fun y n hy => (upd_none_some hy).2
  refine ⟨?_, rfl⟩
  have C0 : Calm h [] := .nil S
  have hs : ∀ y, y ≠ d → (h.kill d).strong y = h.strong y := fun y hy => upd_ne _ _ hy
  simp only [k1, k2, Option.toList, List.map_cons, List.map_nil]
  refine ⟨fun x n hx => C0.kinds x n (kk _ _ hx), fun x v p hx => C0.imgPar x v p (kk _ _ hx), fun x v hx => C0.imgGmg x v (kk _ _ hx), fun x v p hx => C0.gmgPar x v p (kk _ _ hx),
    fun x hx hxd => ?_, fun r hr => ?_, by simp, by simp⟩
  · have hxd : h.sk.kind x = .data := hxd
    simp only [List.cons_append, List.nil_append, List.mem_cons, Task.dropS.injEq, reduceCtorEq, false_or, List.not_mem_nil, or_false] at hx
    have hix : i ≠ x := fun e => ki (e ▸ hxd)
    rcases hx with hx | hx | hx
    · subst hx
      rw [hs _ nld]; simp [Ne.symm ne, hix]; omega
    · subst hx
      rw [hs _ nrd]; simp [ne, hix]; omega
    · exact absurd hx.symm hix
  · simp only [List.cons_append, List.nil_append, List.mem_cons, Task.dropReg.injEq, reduceCtorEq, false_or, or_false, List.not_mem_nil] at hr
    subst hr
    refine ⟨by simp [DataV.dropRange, k1, k2], fun a ha => ?_⟩
    have := S.kinds _ _ (S.dataAlloc d v a nd ha)
    show h.sk.kind a ≠ _
    rw [this]; simp [Node.kind]

end

/-- No call of the specification drops items at once. -/
theorem act_items {umax : Nat} {w : World α} {op : Op α} {b j : Nat} {x : α} (h : w.items b j = .live x) : (w.act umax op).1.items b j ≠ .dropped := by
  have nb : ∀ xs, (w.newBuf xs).items b j ≠ .dropped := fun xs => by
    simp only [World.newBuf]
    split
    · split <;> simp
    · rw [h]; simp
  have st : ∀ b' j' y, y ≠ .dropped → (w.store b' j' y).items b j ≠ .dropped := fun b' j' y hy => by
    simp only [World.store]
    split
    · exact hy
    · rw [h]; simp
  have st1 : ∀ b' j' y, (w.store b' j' (.live y)).items b j ≠ .dropped := fun b' j' y => st _ _ _ (by simp)
  have st2 : ∀ b' j', (w.store b' j' .moved).items b j ≠ .dropped := fun b' j' => st _ _ _ (by simp)
  have same : w.items b j ≠ .dropped := by rw [h]; simp
  cases op <;> simp only [World.act] <;> repeat' split
  all_goals first | exact same | exact nb _ | exact st1 _ _ _ | exact st2 _ _

theorem may_items {umax : Nat} {w : World α} {op : Op α} {r : World α × Obs α} (hm : w.may umax op r) {b j : Nat} {x : α} (h : w.items b j = .live x) :
    r.1.items b j ≠ .dropped := by
  have same : w.items b j ≠ .dropped := by rw [h]; simp
  rcases hm with rfl | hm
  · exact act_items h
  · cases op <;> simp only at hm
    · obtain ⟨_, rfl⟩ := hm; exact same
    · obtain ⟨_, rfl⟩ := hm; exact same
    · obtain ⟨_, _, _, rfl, _⟩ := hm; exact same

/-- Calls that drop no items. -/
def Op.tidy (st : State α) : Op α → Prop
  | .drop k => ∀ x, st.get k = some x → ∃ d g, x = .weak d g
  | .intoParts _ _ => False
  | _ => True

theorem exec_within {umax : Nat} {s s' : State α} {T : List Tok} (I : Inv s.h (tabToks umax s.hs ++ T)) (S' : Shape s'.h.sk) {op : Op α} {o : Obs α} {ts : List Task}
    (kd : ∀ x, x < s.h.sk.next → s'.h.sk.kind x = s.h.sk.kind x) (e : exec umax s op = .ok (s', o, ts)) (hq : Op.tidy s op) {h2 : Heap α} {ts2 : List Task}
    (w : Within s'.h ts h2 ts2) : .userCode ∉ ts2 ∧ h2.slot = s'.h.slot := by
  have S := I.good.shape
  have tok : ∀ {k x}, s.get k = some x → x.tok umax ∈ tabToks umax s.hs ++ T := fun h => List.mem_append_left _ (mem_tabToks.2 ⟨_, _, h, rfl⟩)
  have nil : ts = [] → .userCode ∉ ts2 ∧ h2.slot = s'.h.slot := fun h => by subst h; exact (Calm.nil S').within w
  have nd : ∀ {x n}, s.h.sk.node x = some n → n.kind ≠ .data → s'.h.sk.kind x ≠ .data := fun {x n} hx hn => by
    rw [kd x (I.good.ledger.lt hx), S.kinds _ _ hx]; exact hn
  cases op with
  | rcNew xs =>
    simp only [exec] at e
    split at e
    · obtain ⟨⟨h1, d, i⟩, e1, e⟩ := okb e
      cases e; exact nil rfl
    · cases e; exact nil rfl
  | mutNew xs =>
    simp only [exec] at e
    split at e <;> cases e <;> exact nil rfl
  | weakNew => cases e; exact nil rfl
  | clone k =>
    simp only [exec] at e
    split at e
    · obtain ⟨h1, e1, e⟩ := okb e
      cases e; exact nil rfl
    · obtain ⟨h1, e1, e⟩ := okb e
      cases e; exact nil rfl
    · obtain ⟨xs, e1, e⟩ := okb e
      cases e; exact nil rfl
    · cases e; exact nil rfl
  | cloneSide sd k =>
    simp only [exec] at e
    split at e
    · obtain ⟨⟨h1, d, i⟩, e1, e⟩ := okb e
      cases e; exact nil rfl
    · cases e; exact nil rfl
  | splitOff sd k =>
    simp only [exec] at e
    split at e
    · next d i hk =>
      obtain ⟨⟨h1, ld, li⟩, e1, e⟩ := okb e
      obtain ⟨⟨h3, rd, ri⟩, e2, e⟩ := okb e
      obtain ⟨v, _, hd, _⟩ := I.strong_live (tok hk)
      obtain ⟨h1', c', j', e1', I1, s1, l1⟩ := rcCloneSide_ok I (tok hk) hd .L
      rw [e1] at e1'
      cases e1'
      obtain ⟨v', hd', _, _, hv, _⟩ := s1.data d v hd
      obtain ⟨h3', c', j', e2', I2, s2, l2⟩ := rcCloneSide_ok I1 (List.mem_cons_of_mem _ (tok hk)) hd' .R
      rw [e2] at e2'
      cases e2'
      have dl : d < s.h.sk.next := I.good.ledger.lt hd
      have b1 : h1.sk.lab d = s.h.sk.lab d := s1.lab d dl
      have b2 : h3.sk.lab d = h1.sk.lab d := s2.lab d (I1.good.ledger.lt hd')
      obtain ⟨vl, _, nl, _⟩ := I1.strong_live (d := ld) (i := li) (by simp)
      have b3 : h3.sk.lab ld = h1.sk.lab ld := s2.lab ld (I1.good.ledger.lt nl)
      have key : ∀ {h' new}, taskStep h3 (.dropRcSlice d i) = .ok (h', new) → Calm h' new ∧ h'.slot = h3.slot := fun e =>
        halves_calm (len := v.len) I2 (tok hk) (by rw [b3, b2, b1]; exact l1) (by rw [b2, l2, hv]) e
      have fin : Within h3 [.dropRcSlice d i] h2 ts2 → .userCode ∉ ts2 ∧ h2.slot = h3.slot := fun w => by
        generalize hl : [Task.dropRcSlice d i] = l at w
        cases w with
        | now => subst hl; exact ⟨by simp, rfl⟩
        | next e w =>
          cases hl
          obtain ⟨c1, c2⟩ := key e
          rw [List.append_nil] at w
          obtain ⟨c3, c4⟩ := c1.within w
          exact ⟨c3, c4.trans c2⟩
      cases sd <;> cases e <;> exact fin w
    · obtain ⟨⟨h1, r1, r2⟩, e1, e⟩ := okb e
      cases e; exact nil rfl
    · cases e; exact nil rfl
  | getMut k j a =>
    simp only [exec] at e
    split at e
    · obtain ⟨b, e1, e⟩ := okb e
      split at e
      · obtain ⟨v, _, e⟩ := okb e
        split at e
        · obtain ⟨h1, e2, e⟩ := okb e
          cases e; exact nil rfl
        · cases e; exact nil rfl
      · cases e; exact nil rfl
    · cases e; exact nil rfl
  | write k j a =>
    simp only [exec] at e
    split at e
    · cases e; exact nil rfl
    · obtain ⟨q, _, e⟩ := okb e
      split at e
      · cases e; exact nil rfl
      · split at e
        · obtain ⟨h1, e2, e⟩ := okb e
          cases e; exact nil rfl
        · cases e; exact nil rfl
    · cases e; exact nil rfl
  | read k =>
    simp only [exec] at e
    split at e
    · obtain ⟨q, _, e⟩ := okb e
      split at e
      · cases e; exact nil rfl
      · obtain ⟨xs, _, e⟩ := okb e
        cases e; exact nil rfl
    · cases e; exact nil rfl
  | intoMut k =>
    simp only [exec] at e
    split at e
    · next d i hk =>
      obtain ⟨⟨h1, q⟩, e1, e⟩ := okb e
      obtain ⟨_, vi, _, hi, _⟩ := I.strong_live (tok hk)
      cases q with
      | none => cases e; exact nil rfl
      | some q =>
        obtain ⟨r, t⟩ := q
        have : t = [.dropS i] := by
          simp only [intoMut] at e1
          split at e1
          · cases e1
          · split at e1
            · split at e1
              · obtain ⟨v, _, e1⟩ := okb e1
                obtain ⟨h4, _, e1⟩ := okb e1
                cases e1; rfl
              · cases e1
            · cases e1
        subst this
        cases e
        exact (Calm.drop1 S' (nd hi (by simp [Node.kind]))).within w
    · cases e; exact nil rfl
  | intoImmut k =>
    simp only [exec] at e
    split at e
    · obtain ⟨⟨h1, d, i⟩, e1, e⟩ := okb e
      cases e; exact nil rfl
    · cases e; exact nil rfl
  | downgrade k =>
    simp only [exec] at e
    split at e
    · obtain ⟨⟨h1, g⟩, e1, e⟩ := okb e
      cases e; exact nil rfl
    · cases e; exact nil rfl
  | upgrade k =>
    simp only [exec] at e
    split at e
    · obtain ⟨⟨h1, q⟩, e1, e⟩ := okb e
      cases q <;> cases e <;> exact nil rfl
    · cases e; exact nil rfl
  | drop k =>
    simp only [exec] at e
    split at e
    · next x hk =>
      obtain ⟨⟨h1, q⟩, e1, e⟩ := okb e
      cases e
      obtain ⟨d, g, rfl⟩ := hq x hk
      obtain ⟨h3, _, e1⟩ := okb e1
      cases e1
      obtain ⟨n, hn⟩ := I.live_of_tok (mem_Ss (tok hk) (y := g) (by simp [Handle.tok, Tok.S]))
      have kg : s.h.sk.kind g = .gmg := (I.toks _ (tok hk)).1
      exact (Calm.drop1 S' (nd hn (by rw [← S.kinds _ _ hn, kg]; simp))).within w
    · cases e; exact nil rfl
  | intoIter k =>
    simp only [exec] at e
    split at e <;> cases e <;> exact nil rfl
  | next en k =>
    simp only [exec] at e
    split at e
    · next r hk =>
      obtain ⟨⟨h1, q, r', t⟩, e1, e⟩ := okb e
      have ht : t = [] ∨ t = r.alloc.toList.map .dropS := by
        simp only [iterNext] at e1
        split at e1
        · cases e1; exact .inr rfl
        · split at e1
          · cases e1
          · cases en <;> dsimp only at e1 <;> split at e1
            · split at e1 <;> cases e1
              · exact .inr rfl
              · exact .inl rfl
            · cases e1
            · split at e1 <;> cases e1
              · exact .inr rfl
              · exact .inl rfl
            · cases e1
      have fin : Within s'.h t h2 ts2 → .userCode ∉ ts2 ∧ h2.slot = s'.h.slot := fun w => by
        rcases ht with rfl | rfl
        · exact (Calm.nil S').within w
        · refine (Calm.drops S' fun t ht => ?_).within w
          obtain ⟨a, ha, rfl⟩ := List.mem_map.1 ht
          exact ⟨a, rfl, nd ((I.toks _ (tok hk)).1 a (by simpa using ha)) (by simp [Node.kind])⟩
      cases q <;> cases e <;> exact fin w
    · cases e; exact nil rfl
  | splitOffFrom k n =>
    simp only [exec] at e
    split at e
    · split at e
      · obtain ⟨⟨h1, q, r⟩, e1, e⟩ := okb e
        cases e; exact nil rfl
      · cases e; exact nil rfl
    · cases e; exact nil rfl
  | splitOffTo k n =>
    simp only [exec] at e
    split at e
    · split at e
      · obtain ⟨⟨h1, q, r⟩, e1, e⟩ := okb e
        cases e; exact nil rfl
      · cases e; exact nil rfl
    · cases e; exact nil rfl
  | intoParts k n => exact hq.elim
  | nextPart en k =>
    simp only [exec] at e
    split at e
    · obtain ⟨⟨h1, q, r, t⟩, e1, e⟩ := okb e
      cases q <;> cases e <;> exact nil rfl
    · cases e; exact nil rfl

end Verif.Rc

import Verif.Arc.SendSync
import Verif.Arc.Proofs.Families
import Verif.Props.ArcExclusive
/-!
# Who is on which thread

If handles cannot be moved or shared, everything that has to do with a slice stays on the thread that made it.
-/

namespace Verif.Arc
open Verif.Spec (Side Slot Family Rng End)
open Verif.Rc
variable {α : Type} {T : Auto} {P : Rules α} {zst : Bool}

/-- Thread by thread is one after the other. -/
theorem TReach.erase {s : TConf α} (h : TReach T P zst s) : Conf.PReach P zst s.c := by
  induction h with
  | init => exact .init
  | run _ i e ih => exact .run ih i e
  | start _ _ op hp _ e ih => exact .start ih op hp e
  | send _ _ _ _ _ _ _ _ ih => exact ih
  | lend _ _ _ _ _ _ _ ih => exact ih
  | write _ k en j x hk hw e ih => exact .write ih k en j x hk hw e
  | panic _ i e ih => exact .panic ih i e

/-- The slices of the families that belong to thread `t`. -/
def mine (fam : Nat → Nat) (t : Nat) : Zone where
  R l := fam l.fam = t
  G l := fam l.fam = t
  D _ l := fam l.fam = t

theorem mine_ok {a : Arena α} (fam : Nat → Nat) (t : Nat) : (mine (fill fam a.b.sk.nfam t) t).OK a where
  kid _ _ h := h
  gup _ _ h := h
  par _ _ _ _ h := h
  new l h := by simp only [mine, fill]; rw [if_neg (by omega)]
  rg _ h := h
  rd _ _ h := h

section
variable {c c' : Conf α} {fam : Nat → Nat}

theorem fill_lt {f : Nat → Nat} {n t k : Nat} (h : k < n) : fill f n t k = f k := if_pos h
theorem fill_ge {f : Nat → Nat} {n t k : Nat} (h : n ≤ k) : fill f n t k = t := if_neg (by omega)

theorem TQ.fill (B : c.BI) (F : c.GFI) {t u : Nat} {x : AT} (hx : x ∈ c.T) (h : TQ (mine fam t) c.a x) :
    TQ (mine (fill fam c.a.b.sk.nfam u) t) c.a x := by
  have famLt := B.heap.base.famLt
  cases x with
  | ref x =>
    intro hk
    have := famLt x (B.heap.lt (ref_mem_aS hx)) (by rw [hk]; simp)
    simp only [mine]; rw [fill_lt this]; exact h hk
  | gd g =>
    obtain ⟨v, hv, _⟩ := BI_gd B.gi hx
    obtain ⟨h1, h2⟩ := F.gf.gof g (F.gf.lt g v hv)
    have := famLt _ h1 (by rw [h2]; simp)
    simp only [TQ, mine]; rw [fill_lt this]; exact h
  | wk g =>
    obtain ⟨h1, h2⟩ := F.gf.gof g (Arc.GI.wlt B.gi g (List.mem_flatMap.2 ⟨_, hx, by simp⟩))
    have := famLt _ h1 (by rw [h2]; simp)
    simp only [TQ, mine]; rw [fill_lt this]; exact h
  | _ => trivial

theorem HQ.fill (B : c.BI) {t u k : Nat} {en : Ent} (hk : c.get k = some en) (h : HQ (mine fam t) c.a en.h) :
    HQ (mine (fill fam c.a.b.sk.nfam u) t) c.a en.h := by
  have famLt := B.heap.base.famLt
  obtain ⟨hh, m⟩ := en
  have he := B.ents k _ hk
  cases hh with
  | strong d g =>
    have := famLt d (B.heap.lt (ref_mem_aS (Conf.get_tok' hk (t := .ref d) (by simp [entT])))) (by rw [show c.a.b.sk.kind d = .data from he]; simp)
    simp only [HQ, mine]; rw [fill_lt this]; exact h
  | weak d g =>
    intro x hx
    obtain ⟨h1, h2⟩ := he x hx
    have := famLt x h1 (by rw [h2]; simp)
    obtain ⟨h3, h4⟩ := h x hx
    simp only [mine] at h3 ⊢
    rw [fill_lt this]
    exact ⟨h3, .inl h3⟩
  | uniq r => trivial

end

/-- What belongs to a family is on the thread of that family. -/
structure TConf.ZI (fam : Nat → Nat) (s : TConf α) : Prop where
  hnd : ∀ k en, s.c.get k = some en → HQ (mine fam (s.at_ k)) s.c.a en.h
  call : ∀ (i : Nat) cl, s.c.calls[i]? = some cl → ∀ t ∈ callT cl, TQ (mine fam (s.on i)) s.c.a t
  bor : ∀ (i : Nat) cl, s.c.calls[i]? = some cl → ∀ h, cl.bh s.c = some h → HQ (mine fam (s.on i)) s.c.a h

section
variable {s : TConf α} {c' : Conf α} {fam : Nat → Nat}

theorem TConf.ZI.run {b : Bool} {i : Nat} (Z : s.ZI fam) (A : s.c.IA b) (N : s.c.NI) (e : s.c.step i = .ok c') (lent home : Nat → Nat) :
    TConf.ZI (fill fam s.c.a.b.sk.nfam (s.on i)) ⟨c', fill s.at_ s.c.hs.length (s.on i), s.on, lent, home⟩ := by
  obtain ⟨c3, e3, A', ge⟩ := A.step (i := i)
  rw [e] at e3; cases e3
  have old : ∀ {k : Nat} {en : Ent}, s.c.get k = some en → ∀ t, HQ (mine fam t) s.c.a en.h → HQ (mine (fill fam s.c.a.b.sk.nfam (s.on i)) t) c'.a en.h :=
    fun {k en} hk t h => HQ.mono (k := k) (m := en.mutb) A.bi ge hk (h.fill A.bi hk)
  have oldT : ∀ {j : Nat} {cl : Call α} {u : AT}, s.c.calls[j]? = some cl → u ∈ callT cl → ∀ t, TQ (mine fam t) s.c.a u →
      TQ (mine (fill fam s.c.a.b.sk.nfam (s.on i)) t) c'.a u :=
    fun hj hu t h => (h.fill A.bi A.gf (Conf.call_tok hj hu)).mono A.bi A.gf ge (Conf.call_tok hj hu)
  have mineZ : ∀ cl, s.c.calls[i]? = some cl → _ := fun cl hi =>
    zone_step (Z := mine (fill fam s.c.a.b.sk.nfam (s.on i)) (s.on i)) A (mine_ok fam (s.on i)) hi
      (fun t ht => (Z.call i cl hi t ht).fill A.bi A.gf (Conf.call_tok hi ht))
      (fun h hh => by
        obtain ⟨k, m, _, hk⟩ := Conf.bh_get hh
        exact HQ.fill (en := ⟨h, m⟩) A.bi hk (Z.bor i cl hi h hh)) e
  refine ⟨fun k en hk => ?_, fun j clj hj u hu => ?_, fun j clj hj h hh => ?_⟩
  · cases hi : s.c.calls[i]? with
    | none =>
      have : c' = s.c := by simp only [Conf.step, hi, Except.ok.injEq] at e; exact e.symm
      subst this
      simp only at hk ⊢
      rw [fill_lt (Conf.get_lt hk)]
      exact (Z.hnd k en hk).fill A.bi hk
    | some cl =>
      rcases Nat.lt_or_ge k s.c.hs.length with hl | hl
      · have hk0 := step_get_back e hl hk
        simp only; rw [fill_lt hl]
        exact old hk0 _ (Z.hnd k en hk0)
      · simp only; rw [fill_ge hl]
        rcases (mineZ cl hi).2 k en hk with h | h
        · have := Conf.get_lt h; omega
        · exact h
  · obtain ⟨cl0, h1, _, _, h4⟩ := step_keep e hj
    by_cases hji : j = i
    · subst hji
      exact (mineZ cl0 h1).1 clj hj u hu
    · cases h4 hji
      exact oldT h1 hu _ (Z.call j clj h1 u hu)
  · obtain ⟨cl0, h1, h2, _, _⟩ := step_keep e hj
    obtain ⟨k, m, h3, h5⟩ := Conf.bh_get hh
    have h6 := (N.bor j cl0 k h1 (h2 ▸ h3)).1
    have h7 := step_get_back e h6 h5
    have h8 : cl0.bh s.c = some h := by simp only [Call.bh, ← h2, h3, Option.bind_some, h7, Option.map_some]
    exact old h7 _ (Z.bor j cl0 h1 h h8)

theorem TConf.ZI.start {b : Bool} {t : Nat} {op : Op α} (Z : s.ZI fam) (A : s.c.IA b) (N : s.c.NI) (hm : s.may T t op)
    (hT : (T.arcSlice).sync = false ∧ (T.weakSlice).sync = false) (e : s.c.start op = some c') :
    TConf.ZI fam ⟨c', fill s.at_ s.c.hs.length t, fill s.on s.c.calls.length t, s.lent, s.home⟩ := by
  have ha := (Conf.start_T e).2
  have given : ∀ {k en}, op.on = some k → s.c.get k = some en → HQ (mine fam t) s.c.a en.h := by
    intro k en h1 h2
    rcases hm k en h1 h2 with h | ⟨_, h⟩
    · rw [← h]; exact Z.hnd k en h2
    · obtain ⟨hh, m⟩ := en
      cases hh with
      | strong d g => simp only [Auto.handle, hT.1] at h; cases h
      | weak d g => simp only [Auto.handle, hT.2] at h; cases h
      | uniq r => trivial
  have lab : ∀ {k en}, s.c.get k = some en → HQ (mine fam t) s.c.a en.h → ∀ u ∈ entT en, TQ (mine fam t) s.c.a u := by
    intro k en hk hq u hu
    obtain ⟨hh, m⟩ := en
    cases hh with
    | strong d g =>
      obtain ⟨_, h2⟩ : ofG s.c.a d g := A.gf.ents k _ hk
      simp only [entT, List.mem_cons, List.not_mem_nil, or_false] at hu
      rcases hu with rfl | rfl
      · exact fun _ => hq
      · simp only [TQ]; rw [h2]; exact hq
    | weak d g =>
      obtain ⟨g', hg, rfl⟩ : ∃ g', g = some g' ∧ u = .wk g' := by
        cases g <;> simp_all [entT]
      obtain ⟨y, rfl, _, h2⟩ := A.gf.ents k _ hk g' hg
      simp only [TQ]; rw [h2]; exact (hq y rfl).1
    | uniq r => simp [entT] at hu; subst hu; trivial
  have clt : ∀ {j : Nat} {cl : Call α}, s.c.calls[j]? = some cl → j < s.c.calls.length := fun h => (List.getElem?_eq_some_iff.1 h).1
  refine ⟨fun k en hk => ?_, fun j clj hj u hu => ?_, fun j clj hj h hh => ?_⟩
  · simp only at hk ⊢
    rw [ha]
    rcases start_get (.of e) hk with h | ⟨_, _, rfl⟩ | ⟨d, g, _, h1, rfl⟩
    · rw [fill_lt (Conf.get_lt h)]; exact Z.hnd k en h
    · exact fun x hx => by cases hx
    · rw [fill_lt (Conf.get_lt h1)]; exact Z.hnd k ⟨.strong d g, true⟩ h1
  · simp only at hj ⊢
    rw [ha]
    rcases start_call (.of e) hj with h | ⟨rfl, _⟩
    · rw [fill_lt (clt h)]; exact Z.call j clj h u hu
    · rw [fill_ge (Nat.le_refl _)]
      rcases start_tok (.of e) hj with h | ⟨h, _⟩
      · have := clt h; omega
      · obtain ⟨k, en, h1, h2, h3⟩ := h u hu
        exact lab h2 (given h1 h2) u h3
  · simp only at hj hh ⊢
    rw [ha]
    obtain ⟨k, m, h3, h5⟩ := Conf.bh_get hh
    rcases start_call (.of e) hj with h0 | ⟨rfl, _⟩
    · rw [fill_lt (clt h0)]
      have h6 := (N.bor j clj k h0 h3).1
      obtain ⟨e', h7, h8⟩ := start_get_back e h6 h5
      have h9 : clj.bh s.c = some h := by
        simp only [Call.bh, h3, Option.bind_some, h7, Option.map_some]; rw [h8]
      exact Z.bor j clj h0 h h9
    · rw [fill_ge (Nat.le_refl _)]
      rcases start_tok (.of e) hj with h | ⟨_, h⟩
      · have := clt h; omega
      · obtain ⟨h1, en, h2, h4⟩ := h k h3
        rw [h5] at h4; cases h4
        exact given h1 h2

theorem TConf.ZI.write {en : Ent} {j : Nat} {x : α} (Z : s.ZI fam) (e : s.c.write en j x = .ok c') : TConf.ZI fam { s with c := c' } := by
  have hsk : c'.a.b.sk = s.c.a.b.sk ∧ c'.a.gOf = s.c.a.gOf ∧ c'.hs = s.c.hs ∧ c'.calls = s.c.calls := by
    rcases Conf.write_cases e with rfl | ⟨_, _, rfl⟩ <;> exact ⟨rfl, rfl, rfl, rfl⟩
  obtain ⟨h1, h2, h3, h4⟩ := hsk
  have tq : ∀ u t, TQ (mine fam u) c'.a t ↔ TQ (mine fam u) s.c.a t := fun u t => by cases t <;> simp only [TQ, h1, h2]
  have hq : ∀ u h, HQ (mine fam u) c'.a h ↔ HQ (mine fam u) s.c.a h := fun u h => by cases h <;> simp only [HQ, h1]
  obtain ⟨Z1, Z2, Z3⟩ := Z
  have gt : ∀ k, c'.get k = s.c.get k := fun k => by simp only [Conf.get, h3]
  have bh : ∀ cl : Call α, cl.bh c' = cl.bh s.c := fun cl => by
    simp only [Call.bh]; rw [show c'.get = s.c.get from funext gt]
  refine ⟨?_, ?_, ?_⟩
  · intro k en hk; exact (hq _ _).2 (Z1 k en (gt k ▸ hk))
  · intro i cl hi t ht; exact (tq _ _).2 (Z2 i cl (h4 ▸ hi) t ht)
  · intro i cl hi h hh; exact (hq _ _).2 (Z3 i cl (h4 ▸ hi) h (bh cl ▸ hh))

theorem TConf.ZI.panic {b : Bool} {i : Nat} (Z : s.ZI fam) (A : s.c.IA b) (e : s.c.panic i = some c') : TConf.ZI fam { s with c := c' } := by
  obtain ⟨cl, r, ts, ts', us, sl, p⟩ := Panicked.of A.bi.heap e
  have h1 : c'.a.b.sk = s.c.a.b.sk := by rw [p.eq]; rfl
  have h2 : c'.a.gOf = s.c.a.gOf := by rw [p.eq]; rfl
  have tq : ∀ u t, TQ (mine fam u) c'.a t ↔ TQ (mine fam u) s.c.a t := fun u t => by cases t <;> simp only [TQ, h1, h2]
  have hq : ∀ u h, HQ (mine fam u) c'.a h ↔ HQ (mine fam u) s.c.a h := fun u h => by cases h <;> simp only [HQ, h1]
  refine ⟨fun k en hk => ?_, fun j clj hj u hu => ?_, fun j clj hj h hh => ?_⟩
  · have hk : c'.get k = some en := hk
    rw [p.get] at hk; exact (hq _ _).2 (Z.hnd k en hk)
  · rcases panic_tok p hj hu with ⟨r, rfl⟩ | ⟨cl1, h3, h4⟩
    · trivial
    · exact (tq _ _).2 (Z.call j cl1 h3 u h4)
  · obtain ⟨k, m, h3, h5⟩ := Conf.bh_get hh
    have h5 : c'.get k = _ := h5
    rw [p.get] at h5
    refine (hq _ _).2 ?_
    rcases p.calls hj with ⟨rfl, rfl⟩ | ⟨_, hj⟩
    · exact Z.bor _ cl p.call h (by
        have h3 : cl.borrow = some k := h3
        simp only [Call.bh, h3, Option.bind_some, h5, Option.map_some])
    · exact Z.bor j clj hj h (by simp only [Call.bh, h3, Option.bind_some, h5, Option.map_some])

theorem TConf.ZI.send {k t : Nat} {r : Reg} {m : Bool} (Z : s.ZI fam) (hk : s.c.get k = some ⟨.uniq r, m⟩) :
    TConf.ZI fam { s with at_ := upd s.at_ k t } := by
  refine ⟨fun k' en hk' => ?_, Z.call, Z.bor⟩
  by_cases h : k' = k
  · subst h
    have hk' : s.c.get k' = some en := hk'
    rw [hk] at hk'; cases hk'; trivial
  · have : upd s.at_ k t k' = s.at_ k' := upd_ne _ _ h
    simp only [this]; exact Z.hnd k' en hk'

/-- A type that may not be moved and shared at once. -/
theorem shared_stuck (hT : T.send = false ∨ T.sync = false) : T.arcSlice = ⟨false, false⟩ ∧ T.weakSlice = ⟨false, false⟩ := by
  obtain ⟨a, b⟩ := T
  cases a <;> cases b <;> first | (cases hT <;> rename_i h <;> cases h; done) | exact ⟨rfl, rfl⟩

theorem stuck_send (hT : T.send = false ∨ T.sync = false) {h : Handle} (hs : (T.handle h).send = true) : ∃ r, h = .uniq r := by
  obtain ⟨h1, h2⟩ := shared_stuck hT
  cases h with
  | strong d g => simp only [Auto.handle, h1] at hs; cases hs
  | weak d g => simp only [Auto.handle, h2] at hs; cases hs
  | uniq r => exact ⟨r, rfl⟩

theorem TReach.zones (hT : T.send = false ∨ T.sync = false) (hP : PTame P) (h : TReach T P zst s) : ∃ fam, s.ZI fam := by
  have hS := shared_stuck hT
  induction h with
  | init at_ on lent home => 
    refine ⟨fun _ => 0, ⟨fun k en hk => ?_, fun i cl hi => ?_, fun i cl hi => ?_⟩⟩
    · simp [Conf.init, Conf.get] at hk
    · simp [Conf.init] at hi
    · simp [Conf.init] at hi
  | run h i e ih =>
    obtain ⟨fam, Z⟩ := ih
    exact ⟨_, Z.run (h.erase.IA' hP) (h.erase.families hP 0).1 e _ _⟩
  | start h t op hp hm e ih =>
    obtain ⟨fam, Z⟩ := ih
    exact ⟨fam, Z.start (h.erase.IA' hP) (h.erase.families hP 0).1 hm (by rw [hS.1, hS.2]; exact ⟨rfl, rfl⟩) e⟩
  | send h k t en hk hb hm hs ih =>
    obtain ⟨fam, Z⟩ := ih
    obtain ⟨hh, m⟩ := en
    obtain ⟨r, rfl⟩ := stuck_send hT hs
    exact ⟨fam, Z.send hk⟩
  | lend h k t en hk hm hs ih =>
    obtain ⟨fam, Z⟩ := ih
    exact ⟨fam, Z.hnd, Z.call, Z.bor⟩
  | write h k en j x hk hw e ih =>
    obtain ⟨fam, Z⟩ := ih
    exact ⟨fam, Z.write e⟩
  | panic h i e ih =>
    obtain ⟨fam, Z⟩ := ih
    exact ⟨fam, Z.panic (h.erase.IA' hP) e⟩

/-- If the items cannot be shared, only one thread has handles that show an item. -/
theorem one_thread (hT : T.sync = false) (hP : PStrict P) (h : TReach T P zst s) {k1 k2 b i : Nat} {e1 e2 : Ent} (g1 : s.c.get k1 = some e1)
    (g2 : s.c.get k2 = some e2) (h1 : s.c.Shows k1 b i) (h2 : s.c.Shows k2 b i) : s.holder k1 e1 = s.holder k2 e2 := by
  obtain ⟨fam, Z⟩ := h.zones (.inr hT) hP.tame
  have A := h.erase.IA hP
  by_cases hne : k2 = k1
  · subst hne; rw [g1] at g2; cases g2; rfl
  · have nw : ∀ {k k' : Nat} {en : Ent}, s.c.get k = some en → k' ≠ k → s.c.Shows k b i → s.c.Shows k' b i → Conf.writable en = false := by
      intro k k' en hg hn a1 a2
      cases hw : Conf.writable en with
      | false => rfl
      | true => exact absurd (exclusive A ⟨en, hg, hw⟩ a1 a2) hn
    have w1 := nw g1 hne h1 h2
    have w2 := nw g2 (Ne.symm hne) h2 h1
    obtain ⟨d, g, m, v, d', g', m', v', q1, q2, _, _, hu⟩ := overlap A.bi h1 h2 hne
    rw [g1] at q1; cases q1
    rw [g2] at q2; cases q2
    simp only [Conf.writable] at w1 w2
    subst w1 w2
    have z1 : fam (s.c.a.b.sk.lab d).fam = s.at_ k1 := Z.hnd k1 _ g1
    have z2 : fam (s.c.a.b.sk.lab d').fam = s.at_ k2 := Z.hnd k2 _ g2
    have : (s.c.a.b.sk.lab d).fam = (s.c.a.b.sk.lab d').fam := by
      rcases hu with hu | hu
      · exact hu.1
      · exact hu.1.symm
    show s.at_ k1 = s.at_ k2
    rw [← z1, ← z2, this]

end
end Verif.Arc

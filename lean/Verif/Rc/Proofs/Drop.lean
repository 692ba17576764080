import Verif.Rc.Proofs.Forget
/-!
# Drops
-/

namespace Verif.Rc
open Verif.Spec (Side Slot Family Rng)
variable {α : Type}

/-- What a pending drop holds. -/
def Task.toks : Task → List Tok
  | .dropS x => [.loose x]
  | .dropReg r => [.reg r]
  | .dropRcSlice d i => [.strong d i]
  | .userCode => []

def toksOf (ts : List Task) : List Tok := ts.flatMap Task.toks

@[simp] theorem toksOf_cons (t : Task) (ts : List Task) : toksOf (t :: ts) = t.toks ++ toksOf ts := rfl
@[simp] theorem toksOf_nil : toksOf [] = [] := rfl
@[simp] theorem toksOf_append (ts us : List Task) : toksOf (ts ++ us) = toksOf ts ++ toksOf us := List.flatMap_append ..
@[simp] theorem Ss_append (T U : List Tok) : Ss (T ++ U) = Ss T ++ Ss U := List.flatMap_append ..
@[simp] theorem Ws_append (T U : List Tok) : Ws (T ++ U) = Ws T ++ Ws U := List.flatMap_append ..
@[simp] theorem Gs_append (T U : List Tok) : Gs (T ++ U) = Gs T ++ Gs U := List.flatMap_append ..
@[simp] theorem Ss_nil : Ss [] = [] := rfl
@[simp] theorem Ws_nil : Ws [] = [] := rfl
@[simp] theorem Gs_nil : Gs [] = [] := rfl

theorem toksOf_dropS (l : List Nat) : toksOf (l.map .dropS) = l.map .loose := by
  induction l with
  | nil => rfl
  | cons x l ih => simp [ih, Task.toks]

theorem Ss_loose (l : List Nat) : Ss (l.map .loose) = l := by
  induction l with
  | nil => rfl
  | cons x l ih => simp [ih, Tok.S]
theorem Ws_loose (l : List Nat) : Ws (l.map .loose) = [] := by
  induction l with
  | nil => rfl
  | cons x l ih => simp [ih, Tok.W]
theorem Gs_loose (l : List Nat) : Gs (l.map .loose) = [] := by
  induction l with
  | nil => rfl
  | cons x l ih => simp [ih, Tok.G]

/-- Things only disappear. -/
structure Shrink (h h' : Heap α) : Prop where
  sk : h'.sk = { h.sk with node := h'.sk.node, mem := h'.sk.mem }
  sub : ∀ y m, h'.sk.node y = some m → h.sk.node y = some m
  mem : ∀ b, h'.sk.mem b = true → h.sk.mem b = true
  slot : ∀ b i, h'.slot b i = h.slot b i ∨ ((∃ a, h.slot b i = .live a) ∧ h'.slot b i = .dropped)

theorem Shrink.refl (h : Heap α) : Shrink h h := ⟨rfl, fun _ _ h => h, fun _ h => h, fun _ _ => .inl rfl⟩

theorem Shrink.trans {a b c : Heap α} (h1 : Shrink a b) (h2 : Shrink b c) : Shrink a c where
  sk := by rw [h2.sk, h1.sk]
  sub y m h := h1.sub y m (h2.sub y m h)
  mem x h := h1.mem x (h2.mem x h)
  slot x i := by
    rcases h1.slot x i with e1 | ⟨e1, e2⟩ <;> rcases h2.slot x i with f1 | ⟨f1, f2⟩
    · exact .inl (f1.trans e1)
    · rw [e1] at f1; exact .inr ⟨f1, f2⟩
    · exact .inr ⟨e1, f1.trans e2⟩
    · rw [e2] at f1; obtain ⟨_, f1⟩ := f1; cases f1

theorem Shrink.of_eq {h h' : Heap α} (e : h'.sk = h.sk) (es : h'.slot = h.slot) : Shrink h h' :=
  ⟨by rw [e], fun y m h => e ▸ h, fun b h => e ▸ h, fun b i => .inl (by rw [es])⟩

theorem Shrink.kill (h : Heap α) (x : Nat) : Shrink h (h.kill x) :=
  ⟨rfl, fun _ _ h => (upd_none_some h).2, fun _ h => h, fun _ _ => .inl rfl⟩

theorem Shrink.lab {h h' : Heap α} (p : Shrink h h') : h'.sk.lab = h.sk.lab := by rw [p.sk]
theorem Shrink.kind {h h' : Heap α} (p : Shrink h h') : h'.sk.kind = h.sk.kind := by rw [p.sk]
theorem Shrink.fams {h h' : Heap α} (p : Shrink h h') : h'.sk.fams = h.sk.fams := by rw [p.sk]
theorem Shrink.next {h h' : Heap α} (p : Shrink h h') : h'.sk.next = h.sk.next := by rw [p.sk]
theorem Shrink.zst {h h' : Heap α} (p : Shrink h h') : h'.sk.zst = h.sk.zst := by rw [p.sk]
theorem Shrink.nbuf {h h' : Heap α} (p : Shrink h h') : h'.sk.nbuf = h.sk.nbuf := by rw [p.sk]
theorem Shrink.nfam {h h' : Heap α} (p : Shrink h h') : h'.sk.nfam = h.sk.nfam := by rw [p.sk]
theorem Shrink.blen {h h' : Heap α} (p : Shrink h h') : h'.sk.blen = h.sk.blen := by rw [p.sk]

/-- `h` with tokens `T` and one more reference to `x`. -/
structure Inv1 (h : Heap α) (x : Nat) (T : List Tok) : Prop where
  good : Good h (x :: Ss T) (Ws T) (Gs T)
  toks : ∀ t ∈ T, TokOK h.sk t
  bufs : ∀ b i, h.sk.nbuf ≤ b → h.slot b i = .absent

theorem Inv.loose1 {h : Heap α} {x : Nat} {T : List Tok} (I : Inv h (.loose x :: T)) : Inv1 h x T :=
  ⟨I.good, fun t ht => I.toks t (List.mem_cons_of_mem _ ht), I.bufs⟩

theorem tokOK_loose {k : Skel} {x : Nat} (h : k.kind x ≠ .data) : TokOK k (.loose x) := fun e => absurd e h

section
variable {h : Heap α} {T : List Tok} {x : Nat}

/-- Nothing is above slice data held only from outside. -/
theorem Good.top {S W : List Nat} {G : List Span} (g : Good h (x :: S) W G) (h1 : h.strong x = 1) {v : DataV}
    (hx : h.sk.node x = some (.data v)) {q : Nat} {w : DataV} (hq : h.sk.node q = some (.data w))
    (hu : (h.sk.lab q).up (h.sk.lab x)) : q = x := by
  have : h.sk.lab q = h.sk.lab x := by
    apply Classical.byContradiction; intro hne
    obtain ⟨y, u, s, hy, hp⟩ := g.shape.data_parent hq hx hu hne
    refine g.ledger.no_ref h1 hy ?_
    cases s <;> simp [Node.srefs, hp]
  exact g.shape.dataUniq _ _ _ _ hq hx this

/-- The other tokens survive the death of `x`. -/
theorem Inv1.kill_toks (I : Inv1 h x T) (h1 : h.strong x = 1) {k' : Skel}
    (ek : k' = { h.sk with node := upd h.sk.node x none, mem := k'.mem }) : ∀ t ∈ T, TokOK k' t := by
  have en : k'.node = upd h.sk.node x none := by rw [ek]
  have el : k'.lab = h.sk.lab := by rw [ek]
  have ekk : k'.kind = h.sk.kind := by rw [ek]
  have enx : k'.next = h.sk.next := by rw [ek]
  have ez : k'.zst = h.sk.zst := by rw [ek]
  intro t ht
  have hok := I.toks t ht
  cases t with
  | strong d i => simp only [TokOK]; rw [ekk, el]; exact hok
  | weak d g =>
    obtain ⟨a1, a0, a2⟩ := hok
    simp only [TokOK]; rw [ekk, el, enx, en]
    refine ⟨a1, fun hn q w hq => a0 hn q w (upd_none_some hq).2, fun y hy => ?_⟩
    obtain ⟨b1, b2, b3, b4⟩ := a2 y hy
    refine ⟨b1, b2, b3, fun q w hq hu => ?_⟩
    obtain ⟨c1, c2⟩ := upd_none_some hq
    obtain ⟨v, hv⟩ := b4 q w c2 hu
    refine ⟨v, ?_⟩
    rw [upd_ne _ _ _]; exact hv
    rintro rfl
    exact c1 (I.good.top h1 hv c2 hu)
  | loose y =>
    simp only [TokOK]; rw [ekk, el, en]
    exact fun hk q w hq => hok hk q w (upd_none_some hq).2
  | reg r =>
    simp only [TokOK]; rw [en, ez]
    refine ⟨fun a ha => ?_, hok.2⟩
    rw [upd_ne _ _ _]; exact hok.1 a ha
    rintro rfl
    refine I.good.ledger.no_tok h1 (mem_Ss ht ?_)
    simp [Tok.S, ha]

/-- Dropping an `Rc`. -/
theorem dropStrong_ok (I : Inv1 h x T) : ∃ h' ts, dropStrong h x = .ok (h', ts) ∧ Inv h' (toksOf ts ++ T) ∧ Shrink h h' ∧
    nsum h'.sk Node.cost + (ts.map Task.cost).sum ≤ nsum h.sk Node.cost := by
  have hp := I.good.ledger.pos_of_tok (y := x) (by simp)
  obtain ⟨n, hx⟩ := I.good.ledger.node_of_pos hp
  have hlt := I.good.ledger.lt hx
  by_cases h1 : h.strong x = 1
  · have hcost := nsum_kill hx hlt Node.cost
    have hr : ∀ y m, h.sk.node y = some m → x ∉ m.srefs := fun _ _ hy => I.good.ledger.no_ref h1 hy
    have hkt := I.kill_toks h1 (k' := (h.kill x).sk) rfl
    have hkn : ∀ y m, (h.kill x).sk.node y = some m → y ≠ x ∧ h.sk.node y = some m := fun y m hy => upd_none_some hy
    have hnk : ∀ y m, y ≠ x → h.sk.node y = some m → (h.kill x).sk.node y = some m := fun y m hy e => by
      rw [← e]; exact upd_ne _ _ hy
    have hcost' : nsum (h.kill x).sk Node.cost + n.cost = nsum h.sk Node.cost := hcost
    cases n with
    | data v =>
      refine ⟨h.kill x, (v.kids .L).toList.map .dropS ++ (v.kids .R).toList.map .dropS ++
          [.dropReg ⟨v.buf, v.dropRange.1, v.dropRange.2, v.alloc⟩], ?_, ?_, .kill h x, ?_⟩
      · simp only [dropStrong]; rw [if_neg (by omega), if_neg (by omega), hx]
      · have g1 := I.good.kill hx (by simp [Node.kind]) h1
        refine ⟨?_, ?_, I.bufs⟩
        · simp only [toksOf_append, toksOf_dropS, Ss_append, Ws_append, Gs_append, Ss_loose, Ws_loose, Gs_loose, toksOf_cons,
            toksOf_nil, Task.toks, Ss_cons, Ws_cons, Gs_cons, Tok.S, Tok.W, Tok.G, Ss_nil, Ws_nil, Gs_nil, List.append_nil,
            List.nil_append]
          refine g1.perm ?_ (.refl _) ?_
          · simp [Node.srefs]
          · intro b i
            rw [owners_append, owners_append, Node.spans, v.dropRange_owns, owners_cons, owners_nil]; rfl
        · have kidok : ∀ s c, v.kids s = some c → TokOK (h.kill x).sk (.loose c) := by
            intro s c hc _ q w hq hu
            obtain ⟨_, e, _⟩ := I.good.shape.dataKid x v s c hx hc
            obtain ⟨c1, c2⟩ := hkn _ _ hq
            have hu' : (h.sk.lab q).up (h.sk.lab c) := hu
            show h.sk.lab q = h.sk.lab c
            rw [e] at hu' ⊢
            rcases Lab.up_child_iff.1 hu' with e' | e'
            · exact e'
            · exact absurd (I.good.top h1 hx c2 e') c1
          intro t ht
          simp only [toksOf_append, toksOf_dropS, toksOf_cons, toksOf_nil, Task.toks, List.mem_append, List.mem_map,
            Option.mem_toList, List.mem_singleton, List.append_nil] at ht
          rcases ht with ((⟨c, hc, rfl⟩ | ⟨c, hc, rfl⟩) | rfl) | ht
          · exact kidok _ c hc
          · exact kidok _ c hc
          · refine ⟨fun a ha => ?_, fun h2 h3 => I.good.shape.dataMem x v hx ?_ h3⟩
            · have := I.good.shape.dataAlloc x v a hx ha
              refine hnk a _ ?_ this
              rintro rfl; rw [hx] at this; cases this
            · have hL := v.subLen_le .L; have hR := v.subLen_le .R
              simp only [DataV.dropRange] at h2
              split at h2 <;> simp only at h2 <;> omega
          · exact hkt t ht
      · have hL := v.subLen_le .L; have hR := v.subLen_le .R
        have hd : v.dropRange.2 ≤ v.len := by
          simp only [DataV.dropRange]; split <;> simp only <;> omega
        have hk : ∀ o : Option Nat, ((o.toList.map Task.dropS).map Task.cost).sum ≤ 1 := by
          intro o; cases o <;> simp [Task.cost]
        have k1 := hk (v.kids .L); have k2 := hk (v.kids .R)
        simp only [List.map_append, List.sum_append, List.map_cons, List.map_nil, List.sum_cons, List.sum_nil]
        simp only [Node.cost, Task.cost] at hcost' ⊢
        simp only [List.map_map] at k1 k2 ⊢
        omega
    | img v =>
      have g1 := I.good.kill hx (by simp [Node.kind]) h1
      rw [show (Node.img v).wrefs ++ Ws T = (v.kids .L).toList ++ ((v.kids .R).toList ++ Ws T) by simp [Node.wrefs]] at g1
      obtain ⟨h2, e2, g2, s2, l2⟩ := g1.decW
      obtain ⟨h3, e3, g3, s3, l3⟩ := g2.decW
      have esk : h3.sk = (h.kill x).sk := s3.trans s2
      have esl : h3.slot = (h.kill x).slot := l3.trans l2
      refine ⟨h3, v.parent.toList.map .dropS ++ [.dropS v.gmg], ?_, ?_, (Shrink.kill h x).trans (.of_eq esk esl), ?_⟩
      · simp only [dropStrong]; rw [if_neg (by omega), if_neg (by omega), hx]
        show (do let h ← (h.kill x).decW (v.kids .L); let h ← h.decW (v.kids .R); pure (h, _)) = _
        rw [e2]; show (do let h ← h2.decW (v.kids .R); pure (h, _)) = _
        rw [e3]; rfl
      · refine ⟨?_, ?_, ?_⟩
        · simp only [toksOf_append, toksOf_dropS, Ss_append, Ws_append, Gs_append, Ss_loose, Ws_loose, Gs_loose, toksOf_cons,
            toksOf_nil, Task.toks, Ss_cons, Ws_cons, Gs_cons, Tok.S, Tok.W, Tok.G, Ss_nil, Ws_nil, Gs_nil, List.append_nil,
            List.nil_append]
          exact g3
        · intro t ht
          simp only [toksOf_append, toksOf_dropS, toksOf_cons, toksOf_nil, Task.toks, List.mem_append, List.mem_map,
            Option.mem_toList, List.mem_singleton, List.append_nil] at ht
          rw [esk]
          rcases ht with (⟨c, hc, rfl⟩ | rfl) | ht
          · obtain ⟨_, _, vc, hc'⟩ := I.good.shape.imgPar x v c hx hc
            exact tokOK_loose (by rw [show (h.kill x).sk.kind = h.sk.kind from rfl, I.good.shape.kinds _ _ hc']; simp [Node.kind])
          · obtain ⟨_, vc, hc'⟩ := I.good.shape.imgGmg x v hx
            exact tokOK_loose (by rw [show (h.kill x).sk.kind = h.sk.kind from rfl, I.good.shape.kinds _ _ hc']; simp [Node.kind])
          · exact hkt t ht
        · rw [esk, esl]; exact I.bufs
      · rw [esk]
        have hk : ((v.parent.toList.map Task.dropS).map Task.cost).sum ≤ 1 := by
          cases v.parent <;> simp [Task.cost]
        simp only [List.map_append, List.sum_append, List.map_cons, List.map_nil, List.sum_cons, List.sum_nil]
        simp only [Node.cost, Task.cost] at hcost' ⊢
        simp only [List.map_map] at hk ⊢
        omega
    | gmg v =>
      have g1 := I.good.kill hx (by simp [Node.kind]) h1
      rw [show (Node.gmg v).wrefs ++ Ws T = (v.kids .L).toList ++ ((v.kids .R).toList ++ (v.img.toList ++ Ws T)) by
        simp [Node.wrefs]] at g1
      obtain ⟨h2, e2, g2, s2, l2⟩ := g1.decW
      obtain ⟨h3, e3, g3, s3, l3⟩ := g2.decW
      obtain ⟨h4, e4, g4, s4, l4⟩ := g3.decW
      have esk : h4.sk = (h.kill x).sk := s4.trans (s3.trans s2)
      have esl : h4.slot = (h.kill x).slot := l4.trans (l3.trans l2)
      refine ⟨h4, v.parent.toList.map fun p => .dropS p.1, ?_, ?_, (Shrink.kill h x).trans (.of_eq esk esl), ?_⟩
      · simp only [dropStrong]; rw [if_neg (by omega), if_neg (by omega), hx]
        show (do let h ← (h.kill x).decW (v.kids .L); let h ← h.decW (v.kids .R); let h ← h.decW v.img; pure (h, _)) = _
        rw [e2]; show (do let h ← h2.decW (v.kids .R); let h ← h.decW v.img; pure (h, _)) = _
        rw [e3]; show (do let h ← h3.decW v.img; pure (h, _)) = _
        rw [e4]; rfl
      · have em : (v.parent.toList.map fun p => Task.dropS p.1) = (v.parent.toList.map Prod.fst).map Task.dropS := by simp
        refine ⟨?_, ?_, ?_⟩
        · rw [em]
          simp only [toksOf_dropS, Ss_append, Ws_append, Gs_append, Ss_loose, Ws_loose, Gs_loose, List.nil_append]
          exact g4
        · intro t ht
          rw [em] at ht
          simp only [toksOf_dropS, List.mem_append, List.mem_map, Option.mem_toList] at ht
          rw [esk]
          rcases ht with ⟨c, ⟨⟨p, s⟩, hc, rfl⟩, rfl⟩ | ht
          · obtain ⟨_, _, vc, hc'⟩ := I.good.shape.gmgPar x v p s hx hc
            exact tokOK_loose (by rw [show (h.kill x).sk.kind = h.sk.kind from rfl, I.good.shape.kinds _ _ hc']; simp [Node.kind])
          · exact hkt t ht
        · rw [esk, esl]; exact I.bufs
      · rw [esk]
        have hk : ((v.parent.toList.map fun p => Task.dropS p.1).map Task.cost).sum ≤ 1 := by
          cases v.parent <;> simp [Task.cost]
        simp only [Node.cost] at hcost' ⊢
        omega
    | alloc b =>
      have sh := I.good.shape.killAlloc hx hr
      have L := I.good.ledger.kill hx h1
      have L' : Ledger { h.kill x with sk := { (h.kill x).sk with mem := upd h.sk.mem b false } } (Ss T) (Ws T) (Gs T) :=
        Ledger.frame (h := h.kill x) L rfl rfl rfl rfl rfl
      have gg : Inv { h.kill x with sk := { (h.kill x).sk with mem := upd h.sk.mem b false } } (toksOf [] ++ T) :=
        ⟨⟨sh, L'⟩, I.kill_toks h1 (k' := { (h.kill x).sk with mem := upd h.sk.mem b false }) rfl, I.bufs⟩
      have hsub : ∀ c, upd h.sk.mem b false c = true → h.sk.mem c = true := by
        intro c; simp only [upd]; split
        · intro h; cases h
        · exact id
      by_cases hz : h.sk.zst = true
      · have em : upd h.sk.mem b false = h.sk.mem := by
          funext c; simp only [upd]; split
          · next e => subst e; exact (I.good.shape.memZst hz c).symm
          · rfl
        rw [em] at gg
        refine ⟨h.kill x, [], ?_, gg, .kill h x, ?_⟩
        · simp only [dropStrong]; rw [if_neg (by omega), if_neg (by omega), hx]
          show (if h.sk.zst = true then _ else _) = _
          rw [if_pos hz]
        · simp only [List.map_nil, List.sum_nil]; omega
      · have hm := I.good.shape.allocMem x b hx (by simpa using hz)
        refine ⟨_, [], ?_, gg, ⟨rfl, fun y m hy => (hkn y m hy).2, hsub, fun _ _ => .inl rfl⟩, ?_⟩
        · simp only [dropStrong]; rw [if_neg (by omega), if_neg (by omega), hx]
          show (if h.sk.zst = true then _ else if h.sk.mem b = true then _ else _) = _
          rw [if_neg hz, if_pos hm]; rfl
        · simp only [List.map_nil, List.sum_nil]
          show nsum (h.kill x).sk Node.cost + 0 ≤ _
          omega
  · refine ⟨{ h with strong := upd h.strong x (h.strong x - 1) }, [], ?_, ⟨⟨I.good.shape, I.good.ledger.decS h1⟩, I.toks, I.bufs⟩,
      .of_eq rfl rfl, ?_⟩
    · simp only [dropStrong]; rw [if_neg (by omega), if_pos h1]
    · simp

end

section
variable {h : Heap α} {T : List Tok}

/-- The memory of a range with items is there. -/
theorem Inv.reg_accessible (I : Inv h T) {r : Reg} (hr : .reg r ∈ T) (hl : 0 < r.len) : h.accessible r.buf = true := by
  obtain ⟨h1, h2⟩ := I.toks _ hr
  simp only [Heap.accessible]
  cases ha : r.alloc with
  | none => rw [h2 hl ha]; rfl
  | some a =>
    by_cases hz : h.sk.zst = true
    · rw [hz]; rfl
    · rw [I.good.shape.allocMem a _ (h1 a ha) (by simpa using hz)]; simp

theorem mem_Gs {r : Reg} (hr : .reg r ∈ T) : r.span ∈ Gs T := List.mem_flatMap.2 ⟨_, hr, by simp [Tok.G]⟩

theorem owners_pos {G : List Span} {g : Span} (hg : g ∈ G) {i : Nat} (h1 : g.off ≤ i) (h2 : i < g.off + g.len) :
    0 < owners G g.buf i := by
  induction G with
  | nil => cases hg
  | cons x G ih =>
    rw [owners_cons]
    rcases List.mem_cons.1 hg with rfl | hg
    · have : Span.num g.buf i g = 1 := by simp [Span.num, h1, h2]
      omega
    · have := ih hg; omega

/-- Its items are there. -/
theorem Inv.reg_live (I : Inv h T) {r : Reg} (hr : .reg r ∈ T) {i : Nat} (h1 : r.off ≤ i) (h2 : i < r.off + r.len) :
    ∃ a, h.slot r.buf i = .live a :=
  I.good.ledger.item_live (owners_pos (mem_Gs hr) (g := r.span) h1 h2)

/-- One item of a range goes. -/
theorem Inv.takeItem {r r' : Reg} (I : Inv h (.reg r :: T)) {i : Nat} {s : Slot α} (hs : num s = 0) (h1 : r.off ≤ i)
    (h2 : i < r.off + r.len)
    (hb : r'.buf = r.buf) (ha : r'.alloc = r.alloc)
    (hlen : r'.len ≤ r.len)
    (hsp : ∀ b j, r'.span.num b j + (if b = r.buf ∧ j = i then 1 else 0) = r.span.num b j) :
    Inv (h.setSlot r.buf i s) (.reg r' :: T) := by
  obtain ⟨a, hlive⟩ := I.reg_live (List.mem_cons_self ..) h1 h2
  refine ⟨⟨I.good.shape, ?_⟩, ?_, ?_⟩
  · have L := I.good.ledger
    have L2 : Ledger (h.setSlot r.buf i s) (Ss (.reg r :: T)) (Ws (.reg r :: T)) (Gs (.reg r' :: T)) := by
      refine L.setSlot ?_ ?_
      · intro b j hne
        have := hsp b j
        rw [if_neg (by rintro ⟨rfl, rfl⟩; exact hne rfl)] at this
        simp only [Gs_cons, Tok.G, owners_append, owners_cons, owners_nil]; omega
      · have := hsp r.buf i
        rw [if_pos ⟨rfl, rfl⟩] at this
        have e1 : num (h.slot r.buf i) = 1 := by rw [hlive]; rfl
        rw [e1, hs]; simp only [Gs_cons, Tok.G, owners_append, owners_cons, owners_nil]; omega
    refine L2.congr ?_ (.refl _) fun _ _ => rfl
    simp only [Ss_cons, Tok.S, ha]; exact .refl _
  · intro t ht
    rcases List.mem_cons.1 ht with rfl | ht
    · obtain ⟨a1, a2⟩ := I.toks _ (List.mem_cons_self ..)
      exact ⟨fun a e => by rw [hb]; exact a1 a (ha ▸ e), fun e1 e2 => a2 (by omega) (ha ▸ e2)⟩
    · exact I.toks t (List.mem_cons_of_mem _ ht)
  · intro b j hbj
    rw [setSlot_slot, if_neg]
    · exact I.bufs b j hbj
    · rintro ⟨rfl, rfl⟩
      rw [I.bufs _ _ hbj] at hlive; cases hlive

/-- One pending drop. -/
theorem taskStep_ok {t : Task} (I : Inv h (t.toks ++ T)) : ∃ h' ts, taskStep h t = .ok (h', ts) ∧ Inv h' (toksOf ts ++ T) ∧
    Shrink h h' ∧ nsum h'.sk Node.cost + (ts.map Task.cost).sum < nsum h.sk Node.cost + t.cost := by
  cases t with
  | dropS x =>
    obtain ⟨h', ts, e, i, s, c⟩ := dropStrong_ok (Inv.loose1 I)
    exact ⟨h', ts, e, i, s, by simp only [Task.cost]; omega⟩
  | userCode => exact ⟨h, [], rfl, I, .refl h, by simp [Task.cost]⟩
  | dropRcSlice d i =>
    have I' : Inv h (.strong d i :: T) := I
    obtain ⟨_, vi, _, hi, _⟩ := I'.strong_live (List.mem_cons_self ..)
    have I1 : Inv1 h d (.loose i :: T) := by
      refine ⟨I.good, fun t ht => ?_, I.bufs⟩
      rcases List.mem_cons.1 ht with rfl | ht
      · exact tokOK_loose (by rw [I.good.shape.kinds _ _ hi]; simp [Node.kind])
      · exact I.toks t (List.mem_append.2 (.inr ht))
    obtain ⟨h', ts, e, j, s, c⟩ := dropStrong_ok I1
    refine ⟨h', ts ++ [.dropS i], ?_, ?_, s, ?_⟩
    · simp only [taskStep]; rw [e]; rfl
    · simpa [Task.toks] using j
    · simp only [List.map_append, List.sum_append, List.map_cons, List.map_nil, List.sum_cons, List.sum_nil, Task.cost] at c ⊢
      omega
  | dropReg r =>
    have I' : Inv h (.reg r :: T) := I
    by_cases hl : r.len = 0
    · refine ⟨h, r.alloc.toList.map .dropS, ?_, ?_, .refl h, ?_⟩
      · simp only [taskStep]; rw [if_pos hl]
      · refine ⟨?_, ?_, I.bufs⟩
        · simp only [toksOf_dropS, Ss_append, Ws_append, Gs_append, Ss_loose, Ws_loose, Gs_loose, List.nil_append]
          refine I'.good.perm (.refl _) (.refl _) ?_
          intro b i
          simp only [Gs_cons, Tok.G, owners_append, owners_cons, owners_nil, Reg.span, hl, num_empty]; omega
        · intro t ht
          simp only [toksOf_dropS, List.mem_append, List.mem_map, Option.mem_toList] at ht
          rcases ht with ⟨a, ha, rfl⟩ | ht
          · have := (I'.toks _ (List.mem_cons_self ..)).1 a ha
            exact tokOK_loose (by rw [I.good.shape.kinds _ _ this]; simp [Node.kind])
          · exact I'.toks t (List.mem_cons_of_mem _ ht)
      · have : ((r.alloc.toList.map Task.dropS).map Task.cost).sum ≤ 1 := by cases r.alloc <;> simp [Task.cost]
        simp only [Task.cost] at this ⊢; omega
    · obtain ⟨a, ha⟩ := I'.reg_live (List.mem_cons_self ..) (i := r.off) (Nat.le_refl _) (by omega)
      have hacc := I'.reg_accessible (List.mem_cons_self ..) (by omega)
      refine ⟨h.setSlot r.buf r.off .dropped, [.userCode, .dropReg { r with off := r.off + 1, len := r.len - 1 }], ?_, ?_, ?_, ?_⟩
      · simp only [taskStep]; rw [if_neg hl, hacc]; simp only [Bool.not_true, Bool.false_eq_true, if_false, ha]
      · refine I'.takeItem (r' := { r with off := r.off + 1, len := r.len - 1 }) rfl (Nat.le_refl _) (by omega) rfl rfl
          (Nat.sub_le _ _) ?_
        intro b j
        simp only [Reg.span, Span.num]
        grind
      · refine ⟨rfl, fun _ _ h => h, fun _ h => h, fun b j => ?_⟩
        rw [setSlot_slot]; split
        · next e => obtain ⟨rfl, rfl⟩ := e; exact .inr ⟨⟨a, ha⟩, rfl⟩
        · exact .inl rfl
      · simp only [List.map_cons, List.map_nil, List.sum_cons, List.sum_nil, Task.cost, Heap.setSlot]; omega

theorem fuelFor_eq (h : Heap α) (ts : List Task) : fuelFor h ts = nsum h.sk Node.cost + (ts.map Task.cost).sum := rfl

/-- All pending drops. -/
theorem drain_ok : ∀ (fuel : Nat) {h : Heap α} {ts : List Task}, Inv h (toksOf ts ++ T) → fuelFor h ts ≤ fuel →
    ∃ h', drain fuel h ts = .ok h' ∧ Inv h' T ∧ Shrink h h' := by
  intro fuel
  induction fuel with
  | zero =>
    intro h ts I hf
    cases ts with
    | nil => exact ⟨h, rfl, I, .refl h⟩
    | cons t ts =>
      rw [fuelFor_eq] at hf
      simp only [List.map_cons, List.sum_cons] at hf
      cases t <;> simp only [Task.cost] at hf <;> omega
  | succ fuel ih =>
    intro h ts I hf
    cases ts with
    | nil => exact ⟨h, rfl, I, .refl h⟩
    | cons t ts =>
      rw [toksOf_cons, List.append_assoc] at I
      obtain ⟨h1, new, e1, I1, s1, c1⟩ := taskStep_ok I
      rw [← List.append_assoc, ← toksOf_append] at I1
      rw [fuelFor_eq] at hf
      simp only [List.map_cons, List.sum_cons] at hf
      obtain ⟨h2, e2, I2, s2⟩ := ih I1 (by
        rw [fuelFor_eq]; simp only [List.map_append, List.sum_append]; omega)
      refine ⟨h2, ?_, I2, s1.trans s2⟩
      simp only [drain]; rw [e1]; exact e2

end

end Verif.Rc

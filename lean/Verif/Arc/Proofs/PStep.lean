import Verif.Arc.Proofs.Base3
/-!
# The steps of a call, one case per outcome
-/

namespace Verif.Arc
open Verif.Spec (Side Slot Family Rng End)
open Verif.Rc
variable {α : Type}

/-- The outcomes of `pcStep`. -/
inductive PStep (a : Arena α) : Pc α → Arena α → Next α → Prop
  | done r : PStep a (.done r) a { pc := .done r }
  | new0 xs (hl : xs.length = 0) (r : Reg) (a1 : Arena α) (d : Nat) (hr : r = ⟨(newBuf a.b xs).2, 0, 0, none⟩)
      (e : (a.withB (newBuf a.b xs).1).root r = (a1, d)) : PStep a (.new xs) a1 { pc := .gLoad d [] d }
  | new1 xs (hl : xs.length ≠ 0) (r : Reg) (h1 : Heap α) (al : Nat) (a1 : Arena α) (d : Nat)
      (eh : (newBuf a.b xs).1.rcNew (.alloc (newBuf a.b xs).2) ⟨0, []⟩ = (h1, al))
      (hr : r = ⟨(newBuf a.b xs).2, 0, xs.length, some al⟩)
      (e : (a.withB h1).root r = (a1, d)) : PStep a (.new xs) a1 { pc := .gLoad d [] d }
  | mutNew xs (h : Heap α) (r : Reg) (e : mutFromBox a.b xs = (h, r)) :
      PStep a (.mutNew xs) (a.withB h) { pc := .done .handle, push := [⟨.uniq r, false⟩] }
  | immut r (a1 : Arena α) (d : Nat) (e : a.root r = (a1, d)) : PStep a (.immut r) a1 { pc := .gLoad d [] d }
  | split s r (h : Heap α) (new rest : Reg) (e : regSplitOff a.b r s = .ok (h, new, rest)) :
      PStep a (.split s r) (a.withB h) { pc := .done .handle, push := [⟨.uniq new, false⟩, ⟨.uniq rest, false⟩] }
  | nxt en r (h : Heap α) (o : Option α) (r' : Reg) (ts : List Task) (re : Res α)
      (hre : re = match o with | some x => .item x | none => .none) (e : iterNext a.b r en = .ok (h, o, r', ts)) :
      PStep a (.nxt en r) (a.withB h) { pc := .done re, tasks := ts.map .base,
                                        push := [⟨.uniq r', false⟩] }
  | cutF n r (h : Heap α) (new rest : Reg) (hn : n ≤ r.len)
      (e : iterSplit a.b { r with len := n } { r with off := r.off + n, len := r.len - n } = .ok (h, new, rest)) :
      PStep a (.cut .front n r) (a.withB h) { pc := .done .handle, push := [⟨.uniq new, false⟩, ⟨.uniq rest, false⟩] }
  | cutB n r (h : Heap α) (new rest : Reg) (hn : n ≤ r.len)
      (e : iterSplit a.b { r with off := r.off + n, len := r.len - n } { r with len := n } = .ok (h, new, rest)) :
      PStep a (.cut .back n r) (a.withB h) { pc := .done .handle, push := [⟨.uniq new, false⟩, ⟨.uniq rest, false⟩] }
  | cutNo en n r (hn : r.len < n) : PStep a (.cut en n r) a { pc := .done .panic, push := [⟨.uniq r, false⟩] }
  | cl1 d g (h : Heap α) (e : a.b.incS d = .ok h) : PStep a (.cl1 d g) (a.withB h) { pc := .cl2 d g }
  | cl2 d g (hg : a.gS g ≠ 0) :
      PStep a (.cl2 d g) { a with gS := upd a.gS g (a.gS g + 1) } { pc := .done .handle, push := [⟨.strong d g, false⟩] }
  | waitC d g s v (hv : a.guard g = some v) (hc : v.cGate = true) : PStep a (.wait d g s) a { pc := .wait d g s }
  | waitO d g s v (hv : a.guard g = some v) (hc : v.cGate = false) : PStep a (.wait d g s) a { pc := .cs d s }
  | csSame d s v (h : Heap α) (hd : a.b.getData d = .ok v) (hs : sameNode v.len s = true) (e : a.b.incS d = .ok h) :
      PStep a (.cs d s) (a.withB h) { pc := .gLoad d [] d }
  | csKid d s v c (hd : a.b.getData d = .ok v) (hs : ¬ sameNode v.len s = true) (hk : v.kids s = some c) :
      PStep a (.cs d s) a { pc := .csInc c }
  | csNo d s v (hd : a.b.getData d = .ok v) (hs : ¬ sameNode v.len s = true) (hk : v.kids s = none) :
      PStep a (.cs d s) a { pc := .csNew d s }
  | csInc c (h : Heap α) (e : a.b.incS c = .ok h) : PStep a (.csInc c) (a.withB h) { pc := .gLoad c [] c }
  | csNew d s v (h : Heap α) (hd : a.b.getData d = .ok v) (e : a.b.incSOpt (if v.subLen s = 0 then none else v.alloc) = .ok h) :
      PStep a (.csNew d s) (a.withB h)
        { pc := .csCas d s ⟨v.buf, v.subOff s, v.subLen s, if v.subLen s = 0 then none else v.alloc⟩ }
  | csWin d s r v (h1 : Heap α) (c : Nat) (h2 : Heap α) (hd : a.b.getData d = .ok v) (hk : v.kids s = none)
      (e1 : a.b.rcNew (.data ⟨r.buf, r.off, r.len, r.alloc, noKids⟩) ((a.b.sk.lab d).child s) = (h1, c)) (e2 : h1.incS c = .ok h2) :
      PStep a (.csCas d s r) ({ a with b := h2.setNode d (.data (v.setKid s c)), par := upd a.par c (some d) }.newBox c none)
        { pc := .gLoad c [] c }
  | csLost d s r v c (hd : a.b.getData d = .ok v) (hk : v.kids s = some c) : PStep a (.csCas d s r) a { pc := .csLose c r }
  | csLose c r (h : Heap α) (e : a.b.incS c = .ok h) :
      PStep a (.csLose c r) (a.withB h) { pc := .gLoad c [] c, tasks := [.base (.dropReg { r with len := 0 })] }
  | gLoad x fs y v (hd : a.b.getData x = .ok v) : PStep a (.gLoad x fs y) a { pc := .gTry x (a.box x) none fs y }
  | gTryNo x b pend fs y (h : ∀ g, a.tgt b = some g → a.gS g = 0) :
      PStep a (.gTry x b pend fs y) a { pc := .gPar x b fs y, tasks := pend.toList.map .guard }
  | gTryOk x b pend fs y g (hb : a.tgt b = some g) (hg : a.gS g ≠ 0) :
      PStep a (.gTry x b pend fs y) { a with gS := upd a.gS g (a.gS g + 1) }
        { pc := .gRet g fs y, tasks := pend.toList.map .guard }
  | gParNo x b fs y v (hd : a.b.getData x = .ok v) (hp : ∀ p, a.par x = some p → a.b.strong p = 0) :
      PStep a (.gPar x b fs y) a { pc := .gCas x b none fs y }
  | gParUp x b fs y v p (h : Heap α) (hd : a.b.getData x = .ok v) (hp : a.par x = some p) (hs : a.b.strong p ≠ 0) (e : a.b.incS p = .ok h) :
      PStep a (.gPar x b fs y) (a.withB h) { pc := .gLoad p (⟨x, b, p⟩ :: fs) y }
  | gCasWin x b og fs y v (hd : a.b.getData x = .ok v) (hb : a.box x = b) :
      PStep a (.gCas x b og fs y) ({ a with
          ng := a.ng + 1
          guard := upd a.guard a.ng (some ⟨og, false, false⟩)
          gS := upd a.gS a.ng 1
          gW := upd a.gW a.ng 1
          gOf := upd a.gOf a.ng x }.newBox x (some a.ng)) { pc := .gRet a.ng fs y }
  | gCasLost x b og fs y v (hd : a.b.getData x = .ok v) (hb : a.box x ≠ b) :
      PStep a (.gCas x b og fs y) a { pc := .gTry x (a.box x) og fs y }
  | gRet0 g y : PStep a (.gRet g [] y) a { pc := .done .handle, push := [⟨.strong y g, false⟩] }
  | gRet1 g f fs y : PStep a (.gRet g (f :: fs) y) a { pc := .gCas f.x f.b (some g) fs y, tasks := [.base (.dropS f.p)] }
  | gm0No d g v (hv : a.guard g = some v) (hc : v.dGate = true) :
      PStep a (.gm0 d g) a { pc := .done .none, push := [⟨.strong d g, false⟩] }
  | gm0 d g v (hv : a.guard g = some v) (hc : v.dGate = false) : PStep a (.gm0 d g) (a.setG g { v with dGate := true }) { pc := .gm1 d g }
  | gm1No d g v (hv : a.guard g = some v) (hc : a.gW g ≠ 1) : PStep a (.gm1 d g) a { pc := .gmOpenD d g false }
  | gm1 d g v (hv : a.guard g = some v) (hc : a.gW g = 1) : PStep a (.gm1 d g) a { pc := .gm2 d g }
  | gm2No d g v (hv : a.guard g = some v) (hc : v.cGate = true) : PStep a (.gm2 d g) a { pc := .gmOpenD d g false }
  | gm2 d g v (hv : a.guard g = some v) (hc : v.cGate = false) : PStep a (.gm2 d g) (a.setG g { v with cGate := true }) { pc := .gm3 d g }
  | gm3No d g v (hv : a.guard g = some v) (hc : a.gS g ≠ 1) : PStep a (.gm3 d g) a { pc := .gmOpenC d g false }
  | gm3 d g v (hv : a.guard g = some v) (hc : a.gS g = 1) : PStep a (.gm3 d g) a { pc := .gm4 d g }
  | gm4No d g v (hd : a.b.getData d = .ok v) (hc : a.b.strong d ≠ 1) : PStep a (.gm4 d g) a { pc := .gmOpenC d g false }
  | gm4 d g v (hd : a.b.getData d = .ok v) (hc : a.b.strong d = 1) : PStep a (.gm4 d g) a { pc := .gmOpenC d g true }
  | gmOpenC d g ok v (hv : a.guard g = some v) :
      PStep a (.gmOpenC d g ok) (a.setG g { v with cGate := false }) { pc := .gmOpenD d g ok }
  | gmOpenD d g ok v (hv : a.guard g = some v) :
      PStep a (.gmOpenD d g ok) (a.setG g { v with dGate := false })
        { pc := .done (if ok then .handle else .none), push := [⟨.strong d g, ok⟩] }
  | im0No d g v (hv : a.guard g = some v) (hc : v.cGate = true) :
      PStep a (.im0 d g) a { pc := .done .err, push := [⟨.strong d g, false⟩] }
  | im0 d g v (hv : a.guard g = some v) (hc : v.cGate = false) : PStep a (.im0 d g) (a.setG g { v with cGate := true }) { pc := .im1 d g }
  | im1No d g v (hv : a.guard g = some v) (hc : a.gS g ≠ 1) : PStep a (.im1 d g) a { pc := .imOpen d g }
  | im1 d g v (hv : a.guard g = some v) (hc : a.gS g = 1) : PStep a (.im1 d g) a { pc := .im2 d g }
  | im2No d g v (hd : a.b.getData d = .ok v) (hc : a.b.strong d ≠ 1) : PStep a (.im2 d g) a { pc := .imOpen d g }
  | im2 d g v (hd : a.b.getData d = .ok v) (hc : a.b.strong d = 1) :
      PStep a (.im2 d g) (a.withB (a.b.kill d)) { pc := .imFg (kidsFg v) g ⟨v.buf, v.off, v.len, v.alloc⟩ (ownSpans v) }
  | imOpen d g v (hv : a.guard g = some v) :
      PStep a (.imOpen d g) (a.setG g { v with cGate := false }) { pc := .done .err, push := [⟨.strong d g, false⟩] }
  | imFg0 g r acc : PStep a (.imFg [] g r acc) a { pc := .imGate g r acc }
  | imKid c todo g r acc v (hd : a.b.getData c = .ok v) (hc : a.b.strong c = 1) :
      PStep a (.imFg (.kid c :: todo) g r acc) (a.withB (a.b.kill c))
        { pc := .imFg (kidsFg v ++ .val ⟨v.buf, v.off, 0, v.alloc⟩ :: todo) g r (ownSpans v ++ acc) }
  | imKidNo c todo g r acc v (hd : a.b.getData c = .ok v) (hc : a.b.strong c ≠ 1) :
      PStep a (.imFg (.kid c :: todo) g r acc) a { pc := .imFg todo g r acc, tasks := [.base (.dropS c)] }
  | imVal w todo g r acc : PStep a (.imFg (.val w :: todo) g r acc) a { pc := .imFg todo g r acc, tasks := [.base (.dropReg w)] }
  | imGate g r acc v (hv : a.guard g = some v) :
      PStep a (.imGate g r acc) (a.setG g { v with cGate := false }) { pc := .imOk r acc, tasks := [.guard g] }
  | imOk r acc : PStep a (.imOk r acc) a { pc := .done .handle, push := [⟨.uniq r, false⟩] }
  | dg0C d g v (hv : a.guard g = some v) (hc : v.dGate = true) : PStep a (.dg0 d g) a { pc := .dg0 d g }
  | dg0O d g v (hv : a.guard g = some v) (hc : v.dGate = false) : PStep a (.dg0 d g) a { pc := .dg1 d g }
  | dg1 d g v (hv : a.guard g = some v) :
      PStep a (.dg1 d g) { a with gW := upd a.gW g (a.gW g + 1) }
        { pc := .done .handle, push := [⟨.weak (some d) (some g), false⟩] }
  | upN : PStep a (.up none) a { pc := .done .none }
  | upNo d (h : a.b.strong d = 0) : PStep a (.up (some d)) a { pc := .done .none }
  | up d (h : Heap α) (hs : a.b.strong d ≠ 0) (e : a.b.incS d = .ok h) : PStep a (.up (some d)) (a.withB h) { pc := .gLoad d [] d }
  | wcN d : PStep a (.wc d none) a { pc := .done .handle, push := [⟨.weak d none, false⟩] }
  | wc d g (hg : a.gW g ≠ 0) :
      PStep a (.wc d (some g)) { a with gW := upd a.gW g (a.gW g + 1) } { pc := .done .handle, push := [⟨.weak d (some g), false⟩] }
  | wdN : PStep a (.wd none) a { pc := .done .unit }
  | wd g (hg : a.gW g ≠ 0) : PStep a (.wd (some g)) { a with gW := upd a.gW g (a.gW g - 1) } { pc := .done .unit }

theorem PStep.of {a a' : Arena α} {pc : Pc α} {n : Next α} (e : pcStep a pc = .ok (a', n)) : PStep a pc a' n := by
  cases pc with
  | done r => cases e; exact .done r
  | new xs =>
    simp only [pcStep] at e
    split at e <;> cases e
    · next h => exact .new0 xs h _ _ _ rfl rfl
    · next h => exact .new1 xs h _ _ _ _ _ rfl rfl rfl
  | mutNew xs => cases e; exact .mutNew xs _ _ rfl
  | immut r => cases e; exact .immut r _ _ rfl
  | split s r =>
    obtain ⟨⟨h', new, rest⟩, e1, e2⟩ := bind_ok e
    cases pure_ok e2; exact .split s r _ _ _ e1
  | nxt en r =>
    obtain ⟨⟨h', o, r', ts⟩, e1, e2⟩ := bind_ok e
    cases pure_ok e2; exact .nxt en r _ _ _ _ _ rfl e1
  | cut en n r =>
    simp only [pcStep] at e
    split at e
    · next hn =>
      cases en <;> obtain ⟨⟨h', new, rest⟩, e1, e2⟩ := bind_ok e <;> cases pure_ok e2
      · exact .cutF n r _ _ _ hn e1
      · exact .cutB n r _ _ _ hn e1
    · next hn => cases e; exact .cutNo en n r (Nat.lt_of_not_le hn)
  | cl1 d g =>
    obtain ⟨h', e1, e2⟩ := bind_ok e
    cases pure_ok e2; exact .cl1 d g _ e1
  | cl2 d g =>
    obtain ⟨a2, e1, e2⟩ := bind_ok e
    cases pure_ok e2
    obtain ⟨h1, rfl⟩ := incG_ok e1
    exact .cl2 d g h1
  | wait d g s =>
    obtain ⟨v, e1, e2⟩ := bind_ok e
    split at e2 <;> cases pure_ok e2
    · next h => exact .waitC d g s v (getG_ok e1) h
    · next h => exact .waitO d g s v (getG_ok e1) (by simpa using h)
  | cs d s =>
    obtain ⟨v, e1, e2⟩ := bind_ok e
    split at e2
    · next hs =>
      obtain ⟨h', e3, e2⟩ := bind_ok e2
      cases pure_ok e2; exact .csSame d s v _ e1 hs e3
    · next hs =>
      split at e2 <;> cases pure_ok e2
      · next hk => exact .csKid d s v _ e1 hs hk
      · next hk => exact .csNo d s v e1 hs hk
  | csInc c =>
    obtain ⟨h', e1, e2⟩ := bind_ok e
    cases pure_ok e2; exact .csInc c _ e1
  | csNew d s =>
    obtain ⟨v, e1, e2⟩ := bind_ok e
    obtain ⟨h', e3, e2⟩ := bind_ok e2
    cases pure_ok e2; exact .csNew d s v _ e1 e3
  | csCas d s r =>
    obtain ⟨v, e1, e2⟩ := bind_ok e
    split at e2
    · next hk =>
      obtain ⟨h', e3, e2⟩ := bind_ok e2
      cases pure_ok e2; exact .csWin d s r v _ _ _ e1 hk rfl e3
    · next hk => cases pure_ok e2; exact .csLost d s r v _ e1 hk
  | csLose c r =>
    obtain ⟨h', e1, e2⟩ := bind_ok e
    cases pure_ok e2; exact .csLose c r _ e1
  | gLoad x fs y =>
    obtain ⟨v, e1, e2⟩ := bind_ok e
    cases pure_ok e2; exact .gLoad x fs y v e1
  | gTry x b pend fs y =>
    simp only [pcStep] at e
    split at e
    · next hb => cases e; exact .gTryNo x b pend fs y (by simp [hb])
    · next g hb =>
      split at e <;> cases e
      · next hg => exact .gTryNo x b pend fs y (by rw [hb]; intro g' h'; cases h'; exact hg)
      · next hg => exact .gTryOk x b pend fs y g hb hg
  | gPar x b fs y =>
    obtain ⟨v, e1, e2⟩ := bind_ok e
    split at e2
    · next hp => cases pure_ok e2; exact .gParNo x b fs y v e1 (by simp [hp])
    · next p hp =>
      split at e2
      · next hs => cases pure_ok e2; exact .gParNo x b fs y v e1 (by rw [hp]; intro g' h'; cases h'; exact hs)
      · next hs =>
        obtain ⟨h', e3, e2⟩ := bind_ok e2
        cases pure_ok e2; exact .gParUp x b fs y v p _ e1 hp hs e3
  | gCas x b og fs y =>
    obtain ⟨v, e1, e2⟩ := bind_ok e
    split at e2 <;> cases pure_ok e2
    · next hb => exact .gCasWin x b og fs y v e1 hb
    · next hb => exact .gCasLost x b og fs y v e1 hb
  | gRet g fs y =>
    cases fs with
    | nil => cases e; exact .gRet0 g y
    | cons f fs => cases e; exact .gRet1 g f fs y
  | gm0 d g =>
    obtain ⟨v, e1, e2⟩ := bind_ok e
    split at e2 <;> cases pure_ok e2
    · next h => exact .gm0No d g v (getG_ok e1) h
    · next h => exact .gm0 d g v (getG_ok e1) (by simpa using h)
  | gm1 d g =>
    obtain ⟨v, e1, e2⟩ := bind_ok e
    split at e2 <;> cases pure_ok e2
    · next h => exact .gm1 d g v (getG_ok e1) h
    · next h => exact .gm1No d g v (getG_ok e1) h
  | gm2 d g =>
    obtain ⟨v, e1, e2⟩ := bind_ok e
    split at e2 <;> cases pure_ok e2
    · next h => exact .gm2No d g v (getG_ok e1) h
    · next h => exact .gm2 d g v (getG_ok e1) (by simpa using h)
  | gm3 d g =>
    obtain ⟨v, e1, e2⟩ := bind_ok e
    split at e2 <;> cases pure_ok e2
    · next h => exact .gm3 d g v (getG_ok e1) h
    · next h => exact .gm3No d g v (getG_ok e1) h
  | gm4 d g =>
    obtain ⟨v, e1, e2⟩ := bind_ok e
    cases pure_ok e2
    by_cases h : a.b.strong d = 1
    · rw [beq_iff_eq.2 h]; exact .gm4 d g v e1 h
    · rw [beq_eq_false_iff_ne.2 h]; exact .gm4No d g v e1 h
  | gmOpenC d g ok =>
    obtain ⟨v, e1, e2⟩ := bind_ok e
    cases pure_ok e2; exact .gmOpenC d g ok v (getG_ok e1)
  | gmOpenD d g ok =>
    obtain ⟨v, e1, e2⟩ := bind_ok e
    cases pure_ok e2; exact .gmOpenD d g ok v (getG_ok e1)
  | im0 d g =>
    obtain ⟨v, e1, e2⟩ := bind_ok e
    split at e2 <;> cases pure_ok e2
    · next h => exact .im0No d g v (getG_ok e1) h
    · next h => exact .im0 d g v (getG_ok e1) (by simpa using h)
  | im1 d g =>
    obtain ⟨v, e1, e2⟩ := bind_ok e
    split at e2 <;> cases pure_ok e2
    · next h => exact .im1 d g v (getG_ok e1) h
    · next h => exact .im1No d g v (getG_ok e1) h
  | im2 d g =>
    obtain ⟨v, e1, e2⟩ := bind_ok e
    split at e2 <;> cases pure_ok e2
    · next h => exact .im2 d g v e1 h
    · next h => exact .im2No d g v e1 h
  | imOpen d g =>
    obtain ⟨v, e1, e2⟩ := bind_ok e
    cases pure_ok e2; exact .imOpen d g v (getG_ok e1)
  | imFg todo g r acc =>
    cases todo with
    | nil => cases e; exact .imFg0 g r acc
    | cons f todo =>
      cases f with
      | val w => cases e; exact .imVal w todo g r acc
      | kid c =>
        obtain ⟨v, e1, e2⟩ := bind_ok e
        split at e2 <;> cases pure_ok e2
        · next h => exact .imKid c todo g r acc v e1 h
        · next h => exact .imKidNo c todo g r acc v e1 h
  | imGate g r acc =>
    obtain ⟨v, e1, e2⟩ := bind_ok e
    cases pure_ok e2; exact .imGate g r acc v (getG_ok e1)
  | imOk r acc => cases e; exact .imOk r acc
  | dg0 d g =>
    obtain ⟨v, e1, e2⟩ := bind_ok e
    split at e2 <;> cases pure_ok e2
    · next h => exact .dg0C d g v (getG_ok e1) h
    · next h => exact .dg0O d g v (getG_ok e1) (by simpa using h)
  | dg1 d g =>
    obtain ⟨v, e1, e2⟩ := bind_ok e
    cases pure_ok e2; exact .dg1 d g v (getG_ok e1)
  | up d =>
    cases d with
    | none => cases e; exact .upN
    | some d =>
      simp only [pcStep] at e
      split at e
      · next h => cases e; exact .upNo d h
      · next h =>
        obtain ⟨h', e1, e2⟩ := bind_ok e
        cases pure_ok e2; exact .up d _ h e1
  | wc d g =>
    cases g with
    | none => cases e; exact .wcN d
    | some g =>
      simp only [pcStep] at e
      split at e <;> cases e
      next h => exact .wc d g h
  | wd g =>
    cases g with
    | none => cases e; exact .wdN
    | some g =>
      simp only [pcStep] at e
      split at e <;> cases e
      next h => exact .wd g h

theorem getData_some {h : Heap α} {x : Nat} {v : DataV} (e : h.getData x = .ok v) : h.sk.node x = some (.data v) := by
  simp only [Heap.getData] at e
  split at e <;> cases e
  assumption

theorem incS_some {h h' : Heap α} {x : Nat} (e : h.incS x = .ok h') : h.strong x ≠ 0 ∧ h' = { h with strong := upd h.strong x (h.strong x + 1) } := by
  simp only [Heap.incS] at e
  split at e <;> cases e
  exact ⟨by assumption, rfl⟩

end Verif.Arc

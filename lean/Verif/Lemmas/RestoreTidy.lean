import Verif.Lemmas.RestoreMain
import Verif.Model.RestoreCut

/-!
# The order of a restore's calls
-/

namespace Backpak

open Spec

variable {Id : Type}

/-- A call that changes what there is, or removes it. -/
def SysOp.makes : SysOp Id → Bool
  | .times _ _ => false
  | .chmod _ _ => false
  | _ => true

/-- A call that gives a file its bytes or its time. -/
def SysOp.marks : SysOp Id → Bool
  | .write _ _ => true
  | .times _ _ => true
  | _ => false

/-- The second call does not undo the first: nothing is made or removed at a file or above it once it has
its bytes or its time, and a directory is not made where one has been removed. -/
def Orderly (a b : SysOp Id) : Prop :=
  (a.marks = true → b.makes = true → ¬ b.path <+: a.path) ∧ ∀ p, a = .rmAll p → b ≠ .mkdir p

/-- No call undoes an earlier one. -/
def Tidy (ops : List (SysOp Id)) : Prop := ops.Pairwise Orderly

theorem orderly_apart {p q : Path} (h : Apart p q) {a b : SysOp Id} (ha : p <+: a.path) (hb : q <+: b.path) :
    Orderly a b := by
  constructor
  · intro _ _ hp
    rcases List.prefix_or_prefix_of_prefix ha (hb.trans hp) with h1 | h1
    · exact h.1 h1
    · exact h.2 h1
  · rintro r rfl rfl
    rcases List.prefix_or_prefix_of_prefix ha hb with h1 | h1
    · exact h.1 h1
    · exact h.2 h1

/-- Calls that set metadata. -/
def Marking (ops : List (SysOp Id)) : Prop := ∀ op ∈ ops, op.makes = false

theorem orderly_marking {a b : SysOp Id} (h : b.makes = false) : Orderly a b := by
  refine ⟨fun _ hb => absurd hb (by simp [h]), ?_⟩
  rintro p _ rfl
  cases h

theorem Marking.tidy {ops : List (SysOp Id)} (h : Marking ops) : Tidy ops :=
  List.Pairwise.imp_of_mem (R := fun _ _ => True) (fun _ hb _ => orderly_marking (h _ hb)) (List.pairwise_of_forall (by simp))

theorem Tidy.marking {a b : List (SysOp Id)} (ha : Tidy a) (hb : Marking b) : Tidy (a ++ b) :=
  List.pairwise_append.mpr ⟨ha, hb.tidy, fun _ _ _ hy => orderly_marking (hb _ hy)⟩

theorem Tidy.apart {a b : List (SysOp Id)} (ha : Tidy a) (hb : Tidy b)
    (h : ∀ x ∈ a, ∀ y ∈ b, ∃ p q, Apart p q ∧ p <+: x.path ∧ q <+: y.path) : Tidy (a ++ b) :=
  List.pairwise_append.mpr ⟨ha, hb, fun x hx y hy => by
    obtain ⟨p, q, h1, h2, h3⟩ := h x hx y hy
    exact orderly_apart h1 h2 h3⟩

theorem tidy_nil : Tidy ([] : List (SysOp Id)) := List.Pairwise.nil

variable [LinearOrder Id]

omit [LinearOrder Id] in
theorem metaOps_marking {args : RestoreArgs} {p : Path} {x : Node Id} {ops : List (SysOp Id)}
    (h : metaOps args p x = .ok ops) : Marking ops := by
  unfold metaOps at h
  extract_lets times at h
  have ht : Marking times := by
    unfold times
    split
    · intro o ho; rw [List.mem_singleton.mp ho]; rfl
    · intro o ho; cases ho
  split at h
  · split at h
    · cases h
    · injection h with h; exact h ▸ ht
    · split at h
      · cases h
        intro o ho
        rcases List.mem_append.mp ho with ho | ho
        · exact ht o ho
        · rw [List.mem_singleton.mp ho]; rfl
      · cases h
  · injection h with h; exact h ▸ ht

/-- Only a directory is added by making one where it goes. -/
theorem addOps_tidy {args : RestoreArgs} {F : Forest Id} (hF : ForestSorted F) (k : Nat) : ∀ {p : Path} {x : Node Id}
    {ops : List (SysOp Id)}, addOps args F k p x = .ok ops →
      Tidy ops ∧ (.mkdir p ∈ ops → x.contents.kind = .dir) := by
  induction k with
  | zero => intro p x ops h; cases h
  | succ k ih =>
    intro p x ops h
    unfold addOps at h
    split at h
    · split at h
      · cases h
      · rename_i l hm
        cases h
        have hm' := metaOps_marking hm
        refine ⟨List.pairwise_cons.mpr ⟨fun b hb => orderly_marking (hm' b hb), hm'.tidy⟩, fun hmem => ?_⟩
        rcases List.mem_cons.mp hmem with h1 | h1
        · cases h1
        · cases hm' _ h1
    · cases h
      exact ⟨List.pairwise_singleton _ _, fun hmem => by simp at hmem⟩
    · rename_i sub hc
      split at h
      · cases h
      · rename_i t ht0
        have hs := hF _ _ ht0
        clear ht0
        split at h
        · cases h
        · rename_i l hl
          split at h
          · cases h
          · rename_i l' hm
            cases h
            refine ⟨List.pairwise_cons.mpr ⟨fun b _ => ⟨fun h => (by cases h), fun _ h => (by cases h)⟩, ?_⟩, fun _ => by rw [hc]; rfl⟩
            refine Tidy.marking ?_ (metaOps_marking hm)
            clear hm
            have hall : Tidy l ∧ ∀ o ∈ l, ∃ n ∈ BMap.keys t, p ++ [n] <+: o.path := by
              induction t generalizing l with
              | nil => cases hl; exact ⟨tidy_nil, fun _ h => by cases h⟩
              | cons e t iht =>
                unfold addEach at hl
                split at hl
                · cases hl
                · rename_i l1 h1
                  split at hl
                  · cases hl
                  · rename_i l2 h2
                    cases hl
                    obtain ⟨hlt, hs'⟩ := List.pairwise_cons.mp hs
                    obtain ⟨g1, g2⟩ := iht hs' l2 h2
                    refine ⟨Tidy.apart (ih h1).1 g1 ?_, ?_⟩
                    · intro x hx y hy
                      obtain ⟨n, hn, hp⟩ := g2 y hy
                      refine ⟨_, _, apart_child (p := p) (n := e.1) (m := n) ?_, addOps_under _ h1 x hx, hp⟩
                      rintro rfl
                      obtain ⟨z, hz, hz'⟩ := List.mem_map.mp hn
                      exact absurd (hlt z.1 (List.mem_map.mpr ⟨z, hz, rfl⟩)) (by rw [hz']; exact lt_irrefl _)
                    · intro o ho
                      rcases List.mem_append.mp ho with ho | ho
                      · exact ⟨e.1, by simp [BMap.keys], addOps_under _ h1 o ho⟩
                      · obtain ⟨n, hn, hp⟩ := g2 o ho
                        exact ⟨n, by simp only [BMap.keys, List.map_cons, List.mem_cons]; exact .inr hn, hp⟩
            exact hall.1

omit [LinearOrder Id] in
theorem changeOps_tidy {args : RestoreArgs} {p : Path} {x : Node Id} {ops : List (SysOp Id)}
    (h : changeOps args p x = .ok ops) : Tidy ops := by
  unfold changeOps at h
  split at h
  · split at h
    · cases h
    · rename_i hm
      cases h
      have hm' := metaOps_marking hm
      exact List.pairwise_cons.mpr ⟨fun b hb => orderly_marking (hm' b hb), hm'.tidy⟩
  · cases h
    refine List.pairwise_cons.mpr ⟨fun b _ => ⟨fun h => (by cases h), fun _ h => (by cases h)⟩, List.pairwise_singleton _ _⟩
  · cases h

/-- The path of an event. -/
def Event.path : Event Id → Path
  | .added q _ => q
  | .removed q _ => q
  | .contents q _ _ => q
  | .metadata q _ _ => q
  | .same q _ => q
  | .retyped q _ _ => q

/-- What is reported to be of another kind is. -/
def Event.Apt : Event Id → Prop
  | .retyped _ x y => x.contents.kind ≠ y.contents.kind
  | _ => True

omit [LinearOrder Id] in
theorem removeOps_tidy {p : Path} {x : Node Id} {ops : List (SysOp Id)} (h : removeOps p x = .ok ops) :
    (∃ op, ops = [op] ∧ op.marks = false) ∧ ∀ q, .rmAll q ∈ ops → x.contents.kind = .dir := by
  unfold removeOps at h
  split at h
  · cases h
  · rename_i hk
    cases h
    refine ⟨⟨_, rfl, rfl⟩, fun _ _ => ?_⟩
    unfold Node.kind at hk
    split at hk
    · injection hk
    · cases hk
  · cases h
    exact ⟨⟨_, rfl, rfl⟩, fun q hq => by simp at hq⟩

theorem restoreEvent_tidy {args : RestoreArgs} {places : BMap Name Path} {F1 F2 : Forest Id} (hF2 : ForestSorted F2)
    {e : Event Id} (ha : e.Apt) {r : Restored Id} (h : restoreEvent args places F1 F2 e = .ok r) {p : Path}
    (ht : translate places e.path = .ok p) : Beneath p r.1 ∧ Tidy r.1 ∧ ((∃ q x y, e = .metadata q x y) → Marking r.1) := by
  have fin : ∀ {ev : Event Id} {o : Res (List (SysOp Id))},
      (∀ l, o = .ok l → Beneath p l ∧ Tidy l ∧ ((∃ q x y, e = .metadata q x y) → Marking l)) →
      andPrint args F1 F2 ev o = .ok r →
      Beneath p r.1 ∧ Tidy r.1 ∧ ((∃ q x y, e = .metadata q x y) → Marking r.1) := by
    intro ev o hu ha
    rcases andPrint_ops ha with ⟨_, hr⟩ | ⟨hd, ho⟩
    · rw [hr]; exact ⟨under_nil _, tidy_nil, fun _ _ h => by cases h⟩
    · exact hu _ ho
  cases e with
  | added q y =>
    unfold restoreEvent at h
    simp only [Event.path] at ht
    simp only [ht] at h
    exact fin (fun l hl => ⟨addOps_under _ hl, (addOps_tidy hF2 _ hl).1, fun ⟨_, _, _, h⟩ => by cases h⟩) h
  | removed q x =>
    unfold restoreEvent at h
    simp only [Event.path] at ht
    simp only [ht] at h
    split at h
    · cases h; exact ⟨under_nil _, tidy_nil, fun _ _ h => by cases h⟩
    · refine fin (fun l hl => ⟨removeOps_under hl, ?_, fun ⟨_, _, _, h⟩ => by cases h⟩) h
      obtain ⟨⟨op, rfl, _⟩, _⟩ := removeOps_tidy hl
      exact List.pairwise_singleton _ _
  | contents q x y =>
    unfold restoreEvent at h
    simp only [Event.path] at ht
    simp only [ht] at h
    exact fin (fun l hl => ⟨changeOps_under hl, changeOps_tidy hl, fun ⟨_, _, _, h⟩ => by cases h⟩) h
  | metadata q x y =>
    unfold restoreEvent at h
    simp only [Event.path] at ht
    simp only [ht] at h
    exact fin (fun l hl => ⟨metaOps_under hl, (metaOps_marking hl).tidy, fun _ => metaOps_marking hl⟩) h
  | same q x =>
    unfold restoreEvent at h
    cases h
    exact ⟨under_nil _, tidy_nil, fun _ _ h => by cases h⟩
  | retyped q x y =>
    unfold restoreEvent at h
    simp only [Event.path] at ht
    simp only [ht] at h
    split at h
    · split at h
      · cases h
      · cases h
        exact ⟨under_nil _, tidy_nil, fun _ _ h => by cases h⟩
    · refine fin (fun l hl => ?_) h
      split at hl
      · cases hl
      · rename_i l1 h1
        split at hl
        · cases hl
        · rename_i l2 h2
          cases hl
          refine ⟨(removeOps_under h1).append (addOps_under _ h2), ?_, fun ⟨_, _, _, h⟩ => by cases h⟩
          obtain ⟨⟨op, rfl, hop⟩, hdir⟩ := removeOps_tidy h1
          obtain ⟨g1, g2⟩ := addOps_tidy hF2 _ h2
          refine List.pairwise_append.mpr ⟨List.pairwise_singleton _ _, g1, ?_⟩
          intro a hain b hb
          rw [List.mem_singleton.mp hain]
          refine ⟨fun h => absurd h (by simp [hop]), ?_⟩
          rintro r rfl rfl
          have hr : r = p := by
            unfold removeOps at h1
            split at h1 <;> cases h1
            rfl
          subst hr
          exact ha ((hdir r (by simp)).trans (g2 hb).symm)

/-- What is done from a state on: calls at or below a path, none of which undoes an earlier one. -/
def Adds (p : Path) (s s' : Restored Id) : Prop := ∃ new, s'.1 = s.1 ++ new ∧ Beneath p new ∧ Tidy new

omit [LinearOrder Id] in
theorem adds_same (p : Path) (s : Restored Id) : Adds p s s := ⟨[], by simp, under_nil _, tidy_nil⟩

theorem restorer_adds {args : RestoreArgs} {places : BMap Name Path} {F1 F2 : Forest Id} (hF2 : ForestSorted F2)
    {e : Event Id} {s s' : Restored Id} (h : restorer args places F1 F2 e s = .ok s') {p : Path}
    (ht : translate places e.path = .ok p) (ha : e.Apt) : Adds p s s' := by
  unfold restorer at h
  split at h
  · cases h
  · rename_i ops l he
    cases h
    obtain ⟨h1, h2, _⟩ := restoreEvent_tidy hF2 ha he ht
    exact ⟨_, rfl, h1, h2⟩

/-- What the recursive call does. -/
def DownAdds (places : BMap Name Path) (down : Path → Id → Id → Restored Id → Res (Restored Id)) : Prop :=
  ∀ path p a b s s', translate places path = .ok p → down path a b s = .ok s' → Adds p s s'

theorem compareName_adds {args : RestoreArgs} {places : BMap Name Path} {F1 F2 : Forest Id} (hF2 : ForestSorted F2)
    {down : Path → Id → Id → Restored Id → Res (Restored Id)} (hdown : DownAdds places down) {path : Path}
    {t1 t2 : Tree Id} {n : Name} {s s' : Restored Id} {p : Path} (ht : translate places (path ++ [n]) = .ok p)
    (h : compareName (restorer args places F1 F2) down path t1 t2 n s = .ok s') : Adds p s s' := by
  unfold compareName at h
  split at h
  · cases h
  · exact restorer_adds hF2 h ht trivial
  · exact restorer_adds hF2 h ht trivial
  · unfold compareNodes at h
    split at h
    · cases h
    · cases h
    · split at h
      · split at h
        · cases h
        · rename_i s1 h1
          have hs1 : Adds p s s1 := by
            split at h1
            · cases h1; exact adds_same _ _
            · exact hdown _ _ _ _ _ _ ht h1
          split at h
          · split at h
            · obtain ⟨new, e1, b1, t1⟩ := hs1
              unfold restorer restoreEvent at h
              cases h
              exact ⟨new, by simp [e1], b1, t1⟩
            · cases h; exact hs1
          · obtain ⟨new, e1, b1, t1⟩ := hs1
            unfold restorer at h
            split at h
            · cases h
            · rename_i ops l he
              cases h
              obtain ⟨g1, _, g2⟩ := restoreEvent_tidy hF2 (e := .metadata _ _ _) trivial he ht
              exact ⟨new ++ ops, by simp [e1], b1.append g1, t1.marking (g2 ⟨_, _, _, rfl⟩)⟩
      · split at h
        · exact restorer_adds hF2 h ht trivial
        · split at h <;> exact restorer_adds hF2 h ht trivial
      · split at h
        · exact restorer_adds hF2 h ht trivial
        · split at h <;> exact restorer_adds hF2 h ht trivial
      · rename_i x y _ _ _ _ _ _ _ _ _ _ hn1 hn2 hn3
        refine restorer_adds hF2 h ht ?_
        show x.contents.kind ≠ y.contents.kind
        cases hx : x.contents <;> cases hy : y.contents <;> simp [Contents.kind]
        · exact hn2 _ _ hx hy
        · exact hn1 _ _ hx hy
        · exact hn3 _ _ hx hy

theorem compareNames_adds {args : RestoreArgs} {places : BMap Name Path} {F1 F2 : Forest Id} (hF2 : ForestSorted F2)
    {down : Path → Id → Id → Restored Id → Res (Restored Id)} (hdown : DownAdds places down) {path : Path}
    {t1 t2 : Tree Id} {plc : Name → Path} (ns : List Name) (htr : ∀ n ∈ ns, translate places (path ++ [n]) = .ok (plc n))
    (hap : ns.Pairwise (fun n m => Apart (plc n) (plc m))) : ∀ {s s' : Restored Id},
    compareNames (restorer args places F1 F2) down path t1 t2 ns s = .ok s' →
    ∃ new, s'.1 = s.1 ++ new ∧ (∀ op ∈ new, ∃ n ∈ ns, plc n <+: op.path) ∧ Tidy new := by
  induction ns with
  | nil => intro s s' h; cases h; exact ⟨[], by simp, (fun _ h => by cases h), tidy_nil⟩
  | cons n ns ih =>
    intro s s' h
    unfold compareNames at h
    split at h
    · cases h
    · rename_i s1 h1
      obtain ⟨hap1, hap2⟩ := List.pairwise_cons.mp hap
      obtain ⟨n1, e1, b1, t1⟩ := compareName_adds hF2 hdown (htr n (by simp)) h1
      obtain ⟨n2, e2, b2, t2⟩ := ih (fun m hm => htr m (List.mem_cons_of_mem _ hm)) hap2 h
      refine ⟨n1 ++ n2, by rw [e2, e1, List.append_assoc], ?_, Tidy.apart t1 t2 ?_⟩
      · intro op hop
        rcases List.mem_append.mp hop with hop | hop
        · exact ⟨n, by simp, b1 op hop⟩
        · obtain ⟨m, hm, hp⟩ := b2 op hop
          exact ⟨m, List.mem_cons_of_mem _ hm, hp⟩
      · intro x hx y hy
        obtain ⟨m, hm, hp⟩ := b2 y hy
        exact ⟨_, _, hap1 m hm, b1 x hx, hp⟩

theorem compareTrees_adds {args : RestoreArgs} {places : BMap Name Path} {F1 F2 : Forest Id} (hF2 : ForestSorted F2)
    (k : Nat) : DownAdds places (compareTrees (restorer args places F1 F2) F1 F2 k) := by
  induction k with
  | zero => intro _ _ _ _ _ _ _ h; cases h
  | succ k ih =>
    intro path p a b s s' ht h
    unfold compareTrees at h
    split at h
    · cases h
    · cases h
    · obtain ⟨new, e, b, t⟩ := compareNames_adds hF2 ih (plc := fun n => p ++ [n]) _ (fun n _ => translate_append ht)
        ((BSet.sorted_ofList _).imp (fun {a b} h => apart_child (fun e => by rw [e] at h; exact lt_irrefl _ h))) h
      refine ⟨new, e, fun op hop => ?_, t⟩
      obtain ⟨n, _, hp⟩ := b op hop
      exact (List.prefix_append _ _).trans hp

variable {cut : Bytes → Nat} {look : Look} {dangling : Path → Bool} {s : Snapshot Id} {d2 : Dir Bytes} {fs : Fs}

/-- A restore's calls are all at or below a destination, and none undoes an earlier one. -/
theorem restore_tidy (X : RCtx Id) (h : RestoreOk X.C X.R cut look dangling X.args s d2 fs)
    {ops : List (SysOp Id)} {lines : List (DiffLine Id)}
    (hrun : restore X.C X.src cut look dangling X.args s = .ok (ops, lines)) :
    Tidy ops ∧ ∀ op ∈ ops, ∃ p ∈ s.paths, dest X.args s p <+: op.path := by
  obtain ⟨F2, cache, l1, l2⟩ := load X.hS X.ho h.holds
  obtain ⟨tgt, t1, t2⟩ := load_target X.hS h.toRestoreBut l2
  obtain ⟨ta, d1, a1, a2, a3⟩ := t2.held
  obtain ⟨tb, b1, b2⟩ := l2.held
  have keys1 : ∀ n, n ∈ BMap.keys ta → ∃ p ∈ s.paths, lastName p = n := by
    intro n hn
    have : child (now X.args s look) n ≠ none := by
      rw [← a3]
      rcases child_rel a2 n with ⟨g1, _⟩ | ⟨x, e, _, g2, _⟩
      · exact absurd hn (BMap.get?_eq_none_iff.mp g1)
      · rw [g2]; simp
    rw [Ne, child_none, not_not] at this
    have := (names_listing _).subset this
    rw [List.map_map] at this
    obtain ⟨p, hp, e⟩ := List.mem_map.mp this
    exact ⟨p, hp, e⟩
  have keys2 : ∀ n, n ∈ BMap.keys tb → ∃ p ∈ s.paths, lastName p = n := by
    intro n hn
    refine h.tops n ?_
    rw [← not_not (a := n ∈ d2.names), ← child_none]
    rcases child_rel b2 n with ⟨g1, _⟩ | ⟨x, e, _, g2, _⟩
    · exact absurd hn (BMap.get?_eq_none_iff.mp g1)
    · rw [g2]; simp
  have keys : ∀ n, n ∈ BSet.ofList (BMap.keys ta ++ BMap.keys tb) → ∃ p ∈ s.paths, lastName p = n := by
    intro n hn
    rw [BSet.mem_ofList, List.mem_append] at hn
    exact hn.elim (keys1 n) (keys2 n)
  have hplc : ∀ p ∈ s.paths, dest X.args s (pathOf s (lastName p)) = dest X.args s p :=
    fun p hp => by rw [pathOf_eq h.distinct hp]
  unfold restore at hrun
  rw [l1] at hrun
  dsimp only at hrun
  rw [t1] at hrun
  dsimp only at hrun
  unfold compareTrees at hrun
  simp only [a1, b1] at hrun
  obtain ⟨new, e, b, t⟩ := compareNames_adds l2.sorted (compareTrees_adds l2.sorted _)
    (plc := fun n => dest X.args s (pathOf s n)) _
    (by
      intro n hn
      obtain ⟨p, hp, rfl⟩ := keys n hn
      rw [hplc p hp, List.nil_append]
      simp only [translate, t2.places p hp, List.append_nil])
    (List.Pairwise.imp_of_mem (fun {n m} hn hm hlt => by
      obtain ⟨p, hp, rfl⟩ := keys n hn
      obtain ⟨q, hq, rfl⟩ := keys m hm
      rw [hplc p hp, hplc q hq]
      exact dest_apart h.toRestoreBut hp hq (fun e => by rw [e] at hlt; exact lt_irrefl _ hlt)) (BSet.sorted_ofList _)) hrun
  simp only [List.nil_append] at e
  subst e
  refine ⟨t, fun op hop => ?_⟩
  obtain ⟨n, hn, hp⟩ := b op hop
  obtain ⟨p, hp', rfl⟩ := keys n hn
  rw [hplc p hp'] at hp
  exact ⟨p, hp', hp⟩

end Backpak

import Verif.Lemmas.RestoreAdd

/-!
# What a restore does with two trees
-/

namespace Backpak

open Spec

variable {Id : Type} [LinearOrder Id] {X : RCtx Id} {places : BMap Name Path} {F1 F2 : Forest Id}
  {PF : List Id → Bytes → Prop}

/-- The two forests a restore compares. -/
structure Pair (X : RCtx Id) (F1 F2 : Forest Id) (PF : List Id → Bytes → Prop) : Prop where
  sorted1 : ForestSorted F1
  sorted2 : ForestSorted F2
  nodes1 : NodesOk F1
  nodes2 : ∀ id t n y, F2.get? id = some t → (n, y) ∈ t → Settable X.args y
  agree : Agree F1 F2
  same : ∀ cs x y, PF cs x → FileHolds X.C X.R cs y → x = y
  wet : X.args.dryRun = false

/-- Trees with the same ID stand for the same directory. -/
theorem rel_agree (hA : Agree F1 F2) {PF' : List Id → Bytes → Prop}
    (hs : ∀ cs x y, PF cs x → PF' cs y → x = y) {t : Tree Id} {d1 d2 : Dir Bytes}
    (h1 : HeldIn PF F1 t d1) (h2 : HeldIn PF' F2 t d2) : d1 = d2 := by
  induction h1 generalizing d2 with
  | nil => cases h2; rfl
  | file hx _ ih =>
    cases h2 with
    | file hx' h' => rw [ih h', hs _ _ _ hx hx']
  | link _ ih =>
    cases h2 with
    | link h' => rw [ih h']
  | dir hid _ _ ih1 ih2 =>
    cases h2 with
    | dir hid' hsub' h' =>
      have := hA _ _ _ hid hid'
      subst this
      rw [ih1 hsub', ih2 h']

theorem translate_append {q p r : Path} (h : translate places q = .ok p) : translate places (q ++ r) = .ok (p ++ r) := by
  cases q with
  | nil => cases h
  | cons n q =>
    simp only [translate, List.cons_append] at h ⊢
    cases hg : places.get? n with
    | none => rw [hg] at h; cases h
    | some pl =>
      rw [hg] at h
      cases h
      simp

theorem restorer_ok {args : RestoreArgs} {e : Event Id} {ops : List (SysOp Id)} {l : List (DiffLine Id)}
    (h : restoreEvent args places F1 F2 e = .ok (ops, l)) (s : Restored Id) :
    restorer args places F1 F2 e s = .ok (s.1 ++ ops, s.2 ++ l) := by
  unfold restorer; rw [h]

theorem andPrint_ok {args : RestoreArgs} (hw : args.dryRun = false) {e : Event Id} {ops : List (SysOp Id)}
    {l : List (DiffLine Id)} (h : printEvent (args.times || args.permissions) F1 F2 e = .ok l) :
    andPrint args F1 F2 e (.ok ops) = .ok (ops, l) := by
  unfold andPrint; rw [h]; simp [hw]

theorem NodeOf.grounded {F : Forest Id} {x : Node Id} {e : Ent} {sub : Dir Bytes} (h : NodeOf PF F x e sub) :
    ∀ s md, x = ⟨.dir s, md⟩ → Grounded (InForest F) s := by
  intro s md hx
  obtain ⟨u, h1, h2⟩ := h.down s md hx
  exact .mk h1 (dirRel_grounded h2)

variable (hP : Pair X F1 F2 PF)
include hP

theorem added_good {path p : Path} {y : Node Id} {e : Ent} {sub : Dir Bytes}
    (htr : translate places path = .ok p) (hy : NodeOf (FileHolds X.C X.R) F2 y e sub) (hok : Settable X.args y) :
    ∃ ops l, restoreEvent X.args places F1 F2 (.added path y) = .ok (ops, l) ∧
      NodeGood X ops p (fun _ => none) (view (some (e, sub))) := by
  obtain ⟨l, hl, _⟩ := printAll_ok hP.sorted2 .plus p y hy.grounded
  obtain ⟨ops, h1, h2⟩ := add_good hP.sorted2 hP.nodes2 F2.length p y e sub hy hok
    (fun s md h => forest_tall (hy.grounded s md h))
  refine ⟨ops, l, ?_, h2⟩
  unfold restoreEvent
  simp only [htr, h1]
  exact andPrint_ok hP.wet hl

theorem removed_good {path p : Path} {x : Node Id} {e : Ent} {sub : Dir Bytes}
    (htr : translate places path = .ok p) (hx : NodeOf PF F1 x e sub) (hk : x.md.kind = x.contents.kind) :
    ∃ ops l, restoreEvent X.args places F1 F2 (.removed path x) = .ok (ops, l) ∧
      NodeGood X ops p (view (some (e, sub))) (fun _ => none) := by
  unfold restoreEvent
  by_cases hdel : X.args.delete = false
  · exact ⟨[], [], by simp only [hdel, if_true], keep_good hdel⟩
  · have hdel' : X.args.delete = true := by simpa using hdel
    obtain ⟨l, hl, _⟩ := printAll_ok hP.sorted1 .minus p x hx.grounded
    obtain ⟨ops, h1, h2⟩ := remove_good (X := X) (p := p) (sub := sub) hx.node hk hdel'
    refine ⟨ops, l, ?_, h2⟩
    simp only [htr, h1, if_neg hdel]
    exact andPrint_ok hP.wet hl

theorem retyped_good {path p : Path} {x y : Node Id} {e1 e2 : Ent} {s1 s2 : Dir Bytes}
    (htr : translate places path = .ok p) (hx : NodeOf PF F1 x e1 s1) (hk : x.md.kind = x.contents.kind)
    (hy : NodeOf (FileHolds X.C X.R) F2 y e2 s2) (hok : Settable X.args y) (hne : x.contents.kind ≠ y.contents.kind) :
    ∃ ops l, restoreEvent X.args places F1 F2 (.retyped path x y) = .ok (ops, l) ∧
      NodeGood X ops p (view (some (e1, s1))) (view (some (e2, s2))) := by
  unfold restoreEvent
  simp only [htr]
  by_cases hc : x.contents.kind = .dir ∧ X.args.delete = false
  · rw [if_pos hc, if_neg (fun h => hne (hc.1.trans h.symm))]
    refine ⟨[], [], rfl, ?_⟩
    obtain ⟨c, md⟩ := x
    obtain ⟨md1, l1⟩ := e1
    cases c with
    | file _ => exact absurd hc.1 (by simp [Contents.kind])
    | link _ => exact absurd hc.1 (by simp [Contents.kind])
    | dir s =>
      cases l1 with
      | some l => cases l <;> exact hx.node.elim
      | none =>
        obtain ⟨c', md'⟩ := y
        obtain ⟨md2, l2⟩ := e2
        cases l2 with
        | some l2 => exact conflict_good hc.2 rfl rfl
        | none =>
          cases c' with
          | dir s' => exact absurd rfl hne
          | file _ => exact hy.node.elim
          | link _ => exact hy.node.elim
  · rw [if_neg hc]
    obtain ⟨l, hl, _⟩ := printAll_ok hP.sorted1 .minus p x hx.grounded
    obtain ⟨l', hl', _⟩ := printAll_ok hP.sorted2 .plus p y hy.grounded
    obtain ⟨b, h1, h2⟩ := add_good hP.sorted2 hP.nodes2 F2.length p y e2 s2 hy hok
      (fun s md h => forest_tall (hy.grounded s md h))
    obtain ⟨a, h3, h4⟩ := replace_good (X := X) (sub := s1) hx.node hk (by
      by_cases hd : X.args.delete = true
      · exact .inl hd
      · exact .inr (fun h => hc ⟨h, by simpa using hd⟩)) h2
    refine ⟨a ++ b, l ++ l', ?_, h4⟩
    simp only [h1, h3]
    refine andPrint_ok hP.wet ?_
    simp only [printEvent, hl, hl']

/-- Two files, or two symlinks. -/
theorem leaves_good {path p : Path} {x y : Node Id} {md1 md2 : Meta} {l1 l2 : Leaf Bytes} {s1 s2 : Dir Bytes}
    (htr : translate places path = .ok p) (hx : NodeIs PF x (md1, some l1))
    (hy : NodeIs (FileHolds X.C X.R) y (md2, some l2)) (hok : Settable X.args y)
    (hke : x.contents.kind = y.contents.kind) (st : Restored Id) :
    ∃ ops l, (if x.contents ≠ y.contents then restorer X.args places F1 F2 (.contents path x y) st
        else if x.md ≠ y.md then restorer X.args places F1 F2 (.metadata path x y) st
        else restorer X.args places F1 F2 (.same path y) st) = .ok (st.1 ++ ops, st.2 ++ l) ∧
      NodeGood X ops p (view (some ((md1, some l1), s1))) (view (some ((md2, some l2), s2))) := by
  have hbelow : ∀ q, q ≠ [] → view (some ((md1, some l1), s1)) q = none := fun q hq => view_leaf hq
  by_cases hc : x.contents ≠ y.contents
  · rw [if_pos hc]
    have hpr : ∃ l, printEvent (X.args.times || X.args.permissions) F1 F2 (.contents p x y) = .ok l := by
      unfold printEvent
      dsimp only
      split <;> exact ⟨_, rfl⟩
    obtain ⟨l, hl⟩ := hpr
    have hch : ∃ ops, changeOps X.args p y = .ok ops ∧
        NodeGood X ops p (view (some ((md1, some l1), s1))) (view (some ((md2, some l2), s2))) := by
      obtain ⟨c, m⟩ := x
      obtain ⟨c', m'⟩ := y
      cases c' with
      | dir s => exact hy.elim
      | file cs =>
        cases l2 <;> try exact hy.elim
        obtain ⟨rfl, hf⟩ := hy
        cases c <;> first | cases hke | skip
        cases l1 <;> try exact hx.elim
        obtain ⟨l, h1, h2⟩ := good_write (X := X) (p := p) (sub := s2) hbelow (.inr ⟨_, _, view_top⟩) hok hf
        exact ⟨_, by simp only [changeOps, h1], h2⟩
      | link tgt =>
        cases l2 <;> try exact hy.elim
        obtain ⟨rfl, rfl⟩ := hy
        cases c <;> first | cases hke | skip
        cases l1 <;> try exact hx.elim
        exact ⟨_, rfl, good_relink hbelow view_top⟩
    obtain ⟨ops, h1, h2⟩ := hch
    refine ⟨ops, l, restorer_ok ?_ st, h2⟩
    unfold restoreEvent
    simp only [htr, h1]
    exact andPrint_ok hP.wet hl
  · rw [if_neg hc]
    rw [not_not] at hc
    have hll : l1 = l2 := by
      obtain ⟨c, m⟩ := x
      obtain ⟨c', m'⟩ := y
      simp only at hc
      subst hc
      cases c <;> cases l1 <;> first | exact hx.elim | (cases l2 <;> first | exact hy.elim | skip)
      · rw [hP.same _ _ _ hx.2 hy.2]
      · rw [← hx.2, ← hy.2]
    subst hll
    by_cases hm : x.md ≠ y.md
    · rw [if_pos hm]
      obtain ⟨ops, h1, h2⟩ := good_remeta (X := X) (p := p) (sub := s2) hbelow view_top hok hy
      refine ⟨ops, if (X.args.times || X.args.permissions) = true then [(.md (metaDiffChar x.md y.md), p, y)] else [],
        restorer_ok ?_ st, h2⟩
      unfold restoreEvent
      simp only [htr, h1]
      exact andPrint_ok hP.wet rfl
    · rw [if_neg hm]
      rw [not_not] at hm
      have h1 : x.md = md1 := by
        obtain ⟨c, m⟩ := x
        cases c <;> cases l1 <;> first | exact hx.elim | exact hx.1
      have h2 : y.md = md2 := by
        obtain ⟨c, m⟩ := y
        cases c <;> cases l1 <;> first | exact hy.elim | exact hy.1
      have : md1 = md2 := by rw [← h1, ← h2, hm]
      subst this
      refine ⟨[], [], restorer_ok (by rfl) st, ?_⟩
      have : view (some ((md1, some l1), s1)) = view (some ((md1, some l1), s2)) := by
        funext q
        by_cases hq : q = []
        · subst hq; rfl
        · rw [view_leaf hq, view_leaf hq]
      rw [this]
      exact good_same

/-- What the comparison of two trees should do. -/
def DownGood (X : RCtx Id) (places : BMap Name Path) (F1 F2 : Forest Id) (PF : List Id → Bytes → Prop) (k : Nat) : Prop :=
  ∀ (path p : Path) (a b : Id) (t1 t2 : Tree Id) (d1 d2 : Dir Bytes), translate places path = .ok p →
    F1.get? a = some t1 → HeldIn PF F1 t1 d1 → Tall (InForest F1) k a →
    F2.get? b = some t2 → HeldIn (FileHolds X.C X.R) F2 t2 d2 → ∀ st : Restored Id,
    ∃ ops l, compareTrees (restorer X.args places F1 F2) F1 F2 k path a b st = .ok (st.1 ++ ops, st.2 ++ l) ∧
      InsideGood X ops p d1 d2

theorem nodes_good {k : Nat} (hdown : DownGood X places F1 F2 PF k) {path p : Path} {x y : Node Id} {e1 e2 : Ent}
    {s1 s2 : Dir Bytes} (htr : translate places path = .ok p)
    (hx : NodeOf PF F1 x e1 s1) (hk : x.md.kind = x.contents.kind)
    (hy : NodeOf (FileHolds X.C X.R) F2 y e2 s2) (hok : Settable X.args y)
    (hta : ∀ s md, x = ⟨.dir s, md⟩ → Tall (InForest F1) k s) (st : Restored Id) :
    ∃ ops l, compareNodes (restorer X.args places F1 F2) (compareTrees (restorer X.args places F1 F2) F1 F2 k)
        path x y st = .ok (st.1 ++ ops, st.2 ++ l) ∧
      NodeGood X ops p (view (some (e1, s1))) (view (some (e2, s2))) := by
  have hky := hok.kind
  have retyped : x.contents.kind ≠ y.contents.kind → ∃ ops l,
      restorer X.args places F1 F2 (.retyped path x y) st = .ok (st.1 ++ ops, st.2 ++ l) ∧
      NodeGood X ops p (view (some (e1, s1))) (view (some (e2, s2))) := by
    intro hne
    obtain ⟨ops, l, h1, h2⟩ := retyped_good hP htr hx hk hy hok hne
    exact ⟨ops, l, restorer_ok h1 st, h2⟩
  unfold compareNodes
  rw [kind_ok hk, kind_ok hky]
  obtain ⟨c, md⟩ := x
  obtain ⟨c', md'⟩ := y
  obtain ⟨md1, l1⟩ := e1
  obtain ⟨md2, l2⟩ := e2
  cases c with
  | file cs =>
    cases c' with
    | dir _ => exact retyped (by simp [Contents.kind])
    | link _ => exact retyped (by simp [Contents.kind])
    | file cs' =>
      cases l1 with
      | none => exact hx.node.elim
      | some l1 =>
        cases l2 with
        | none => exact hy.node.elim
        | some l2 =>
          have := leaves_good hP (s1 := s1) (s2 := s2) htr hx.node hy.node hok rfl st
          simpa only [Contents.file.injEq, ne_eq] using this
  | link tgt =>
    cases c' with
    | dir _ => exact retyped (by simp [Contents.kind])
    | file _ => exact retyped (by simp [Contents.kind])
    | link tgt' =>
      cases l1 with
      | none => exact hx.node.elim
      | some l1 =>
        cases l2 with
        | none => exact hy.node.elim
        | some l2 =>
          have := leaves_good hP (s1 := s1) (s2 := s2) htr hx.node hy.node hok rfl st
          simpa only [Contents.link.injEq, ne_eq] using this
  | dir a =>
    cases c' with
    | file _ => exact retyped (by simp [Contents.kind])
    | link _ => exact retyped (by simp [Contents.kind])
    | dir b =>
      cases l1 with
      | some l1 => cases l1 <;> exact hx.node.elim
      | none =>
        cases l2 with
        | some l2 => cases l2 <;> exact hy.node.elim
        | none =>
          obtain ⟨u1, g1, g2⟩ := hx.down a md rfl
          obtain ⟨u2, g3, g4⟩ := hy.down b md' rfl
          have e1 : md = md1 := hx.node
          have e2 : md' = md2 := hy.node
          subst e1 e2
          have hins : ∃ ops l, (if a = b then .ok st else
              compareTrees (restorer X.args places F1 F2) F1 F2 k path a b st) = .ok (st.1 ++ ops, st.2 ++ l) ∧
              InsideGood X ops p s1 s2 := by
            by_cases hab : a = b
            · rw [if_pos hab]
              subst hab
              have := hP.agree _ _ _ g1 g3
              subst this
              have := rel_agree hP.agree hP.same g2 g4
              subst this
              exact ⟨[], [], by simp, inside_same⟩
            · rw [if_neg hab]
              exact hdown path p a b u1 u2 s1 s2 htr g1 g2 (hta a md rfl) g3 g4 st
          obtain ⟨ops, l, h1, h2⟩ := hins
          simp only [h1]
          by_cases hmd : md = md'
          · rw [if_pos hmd]
            subst hmd
            by_cases hab : a = b
            · rw [if_pos hab]
              exact ⟨ops, l, by rw [restorer_ok (ops := []) (l := []) (by rfl)]; simp, good_dir h2⟩
            · rw [if_neg hab]
              exact ⟨ops, l, rfl, good_dir h2⟩
          · rw [if_neg hmd]
            obtain ⟨mo, k1, k2⟩ := good_dir_meta (md1 := md) h2 hok rfl
            refine ⟨ops ++ mo, l ++ (if (X.args.times || X.args.permissions) = true then
              [(.md (metaDiffChar md md'), p, ⟨.dir b, md'⟩)] else []), ?_, k2⟩
            rw [restorer_ok (ops := mo) (l := if (X.args.times || X.args.permissions) = true then
              [(.md (metaDiffChar md md'), p, ⟨.dir b, md'⟩)] else []) (by
              unfold restoreEvent
              simp only [htr, k1]
              exact andPrint_ok hP.wet rfl)]
            simp only [List.append_assoc]

theorem name_good {k : Nat} (hdown : DownGood X places F1 F2 PF k) {path p : Path} {n : Name} {a b : Id}
    {t1 t2 : Tree Id} {d1 d2 : Dir Bytes} (htr : translate places (path ++ [n]) = .ok p)
    (ht1 : F1.get? a = some t1) (hd1 : HeldIn PF F1 t1 d1) (hta : ∀ s, Sub t1 s → Tall (InForest F1) k s)
    (ht2 : F2.get? b = some t2) (hd2 : HeldIn (FileHolds X.C X.R) F2 t2 d2)
    (hn : n ∈ BMap.keys t1 ∨ n ∈ BMap.keys t2) (st : Restored Id) :
    ∃ ops l, compareName (restorer X.args places F1 F2) (compareTrees (restorer X.args places F1 F2) F1 F2 k)
        path t1 t2 n st = .ok (st.1 ++ ops, st.2 ++ l) ∧
      NodeGood X ops p (fun q => entry d1 (n :: q)) (fun q => entry d2 (n :: q)) := by
  have hv1 : (fun q => entry d1 (n :: q)) = view (child d1 n) := by funext q; rw [entry_cons]
  have hv2 : (fun q => entry d2 (n :: q)) = view (child d2 n) := by funext q; rw [entry_cons]
  rw [hv1, hv2]
  unfold compareName
  have hvn : view none = fun _ => none := by funext q; rfl
  rcases child_rel hd1 n with ⟨g1, g2⟩ | ⟨x, e1, g1, g2, g3, g4⟩
  · rcases child_rel hd2 n with ⟨k1, k2⟩ | ⟨y, e2, k1, k2, k3, k4⟩
    · rw [BMap.get?_eq_none_iff] at g1 k1
      rcases hn with hn | hn
      · exact absurd hn g1
      · exact absurd hn k1
    · rw [g1, k1, g2, k2, hvn]
      obtain ⟨ops, l, h1, h2⟩ := added_good hP (e := e2.1) (sub := e2.2) htr ⟨k3, k4⟩ (hP.nodes2 b t2 n y ht2 (BMap.mem_of_get? k1))
      exact ⟨ops, l, restorer_ok h1 st, h2⟩
  · rcases child_rel hd2 n with ⟨k1, k2⟩ | ⟨y, e2, k1, k2, k3, k4⟩
    · rw [g1, k1, g2, k2, hvn]
      obtain ⟨ops, l, h1, h2⟩ := removed_good hP (e := e1.1) (sub := e1.2) htr ⟨g3, g4⟩ (hP.nodes1 a t1 ht1 n x g1)
      exact ⟨ops, l, restorer_ok h1 st, h2⟩
    · rw [g1, k1, g2, k2]
      exact nodes_good hP hdown (e1 := e1.1) (s1 := e1.2) (e2 := e2.1) (s2 := e2.2) htr ⟨g3, g4⟩ (hP.nodes1 a t1 ht1 n x g1) ⟨k3, k4⟩
        (hP.nodes2 b t2 n y ht2 (BMap.mem_of_get? k1))
        (fun s md h => hta s ⟨n, md, h ▸ BMap.mem_of_get? g1⟩) st

theorem names_good {k : Nat} (hdown : DownGood X places F1 F2 PF k) {path : Path} {plc : Name → Path} {a b : Id}
    {t1 t2 : Tree Id} {d1 d2 : Dir Bytes}
    (ht1 : F1.get? a = some t1) (hd1 : HeldIn PF F1 t1 d1) (hta : ∀ s, Sub t1 s → Tall (InForest F1) k s)
    (ht2 : F2.get? b = some t2) (hd2 : HeldIn (FileHolds X.C X.R) F2 t2 d2)
    (ns : List Name) (htr : ∀ n ∈ ns, translate places (path ++ [n]) = .ok (plc n))
    (hap : ns.Pairwise (fun n m => Apart (plc n) (plc m)))
    (hn : ∀ n ∈ ns, n ∈ BMap.keys t1 ∨ n ∈ BMap.keys t2) : ∀ st : Restored Id,
    ∃ ops l, compareNames (restorer X.args places F1 F2) (compareTrees (restorer X.args places F1 F2) F1 F2 k)
        path t1 t2 ns st = .ok (st.1 ++ ops, st.2 ++ l) ∧
      ManyGood X ops ns plc (entry d1) (entry d2) := by
  induction ns with
  | nil => intro st; exact ⟨[], [], by simp [compareNames], many_nil⟩
  | cons n ns ih =>
    intro st
    obtain ⟨hap1, hap2⟩ := List.pairwise_cons.mp hap
    obtain ⟨o1, l1, h1, h2⟩ := name_good hP hdown (htr n (by simp)) ht1 hd1 hta ht2 hd2 (hn n (by simp)) st
    obtain ⟨o2, l2, h3, h4⟩ := ih (fun m hm => htr m (List.mem_cons_of_mem _ hm)) hap2
      (fun m hm => hn m (List.mem_cons_of_mem _ hm)) (st.1 ++ o1, st.2 ++ l1)
    refine ⟨o1 ++ o2, l1 ++ l2, ?_, many_cons h2 h4 hap1⟩
    simp only [compareNames, h1, h3, List.append_assoc]

theorem down_good (k : Nat) : DownGood X places F1 F2 PF k := by
  induction k with
  | zero => intro _ _ _ _ _ _ _ _ _ _ _ h; exact h.elim
  | succ k ih =>
    rintro path p a b t1 t2 d1 d2 htr ht1 hd1 ⟨t, ht, hs⟩ ht2 hd2 st
    have := InForest.one ht ht1
    subst this
    have hmem : ∀ n, n ∈ BSet.ofList (BMap.keys t ++ BMap.keys t2) ↔ n ∈ BMap.keys t ∨ n ∈ BMap.keys t2 := by
      intro n; rw [BSet.mem_ofList, List.mem_append]
    obtain ⟨ops, l, h1, h2⟩ := names_good hP ih (path := path) (plc := fun n => p ++ [n]) ht1 hd1 hs ht2 hd2
      (BSet.ofList (BMap.keys t ++ BMap.keys t2)) (fun n _ => translate_append htr)
      ((BSet.sorted_ofList _).imp (fun {a b} h => apart_child (fun e => by rw [e] at h; exact lt_irrefl _ h)))
      (fun n hn => (hmem n).mp hn) st
    refine ⟨ops, l, by simp only [compareTrees, ht1, ht2, h1], fun d hr hin hd hs => inside_run h2 ?_ d hr hin hd hs⟩
    intro n hn
    rw [hmem, not_or] at hn
    constructor
    · rcases child_rel hd1 n with ⟨_, g2⟩ | ⟨x, e1, g1, _⟩
      · exact g2
      · exact absurd (BMap.mem_keys_of_mem (BMap.mem_of_get? g1)) hn.1
    · rcases child_rel hd2 n with ⟨_, g2⟩ | ⟨x, e1, g1, _⟩
      · exact g2
      · exact absurd (BMap.mem_keys_of_mem (BMap.mem_of_get? g1)) hn.2

/-- What comparing the two roots does, given where the top-level nodes go. -/
theorem roots_good {plc : Name → Path} {a b : Id} {t1 t2 : Tree Id} {d1 d2 : Dir Bytes}
    (ht1 : F1.get? a = some t1) (hd1 : HeldIn PF F1 t1 d1)
    (ht2 : F2.get? b = some t2) (hd2 : HeldIn (FileHolds X.C X.R) F2 t2 d2)
    (htr : ∀ n, n ∈ BMap.keys t1 ∨ n ∈ BMap.keys t2 → places.get? n = some (plc n))
    (hap : ∀ n m, (n ∈ BMap.keys t1 ∨ n ∈ BMap.keys t2) → (m ∈ BMap.keys t1 ∨ m ∈ BMap.keys t2) → n ≠ m →
      Apart (plc n) (plc m)) :
    ∃ ops l, compareTrees (restorer X.args places F1 F2) F1 F2 (F1.length + 1) [] a b ([], []) = .ok (ops, l) ∧
      ManyGood X ops (BSet.ofList (BMap.keys t1 ++ BMap.keys t2)) plc (entry d1) (entry d2) := by
  have hmem : ∀ n, n ∈ BSet.ofList (BMap.keys t1 ++ BMap.keys t2) ↔ n ∈ BMap.keys t1 ∨ n ∈ BMap.keys t2 := by
    intro n; rw [BSet.mem_ofList, List.mem_append]
  obtain ⟨ops, l, h1, h2⟩ := names_good hP (places := places) (down_good hP F1.length) (path := []) (plc := plc) ht1 hd1
    (fun s hs => forest_tall (dirRel_grounded hd1 s hs)) ht2 hd2
    (BSet.ofList (BMap.keys t1 ++ BMap.keys t2))
    (fun n hn => by
      have := htr n ((hmem n).mp hn)
      simp only [List.nil_append, translate, this, List.append_nil])
    (List.Pairwise.imp_of_mem (fun {a b} ha hb h => hap a b ((hmem a).mp ha) ((hmem b).mp hb)
      (fun e => by rw [e] at h; exact lt_irrefl _ h)) (BSet.sorted_ofList _))
    (fun n hn => (hmem n).mp hn) ([], [])
  exact ⟨ops, l, by simpa only [compareTrees, ht1, ht2, List.nil_append] using h1, h2⟩

end Backpak

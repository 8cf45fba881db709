import Verif.Lemmas.Text
import Verif.Props.C43
import Verif.Props.C38
import Verif.Props.C63

/-!
# C94 - What ls and diff print tells what there is

The full claim, that the text `ls` and `diff` print tells the paths, what is at them and where symlinks
lead, fails: names and targets are printed as they are. It is proved for plain names.
-/

namespace Backpak.C94

open Spec Text

variable {Id : Type} [LinearOrder Id] {C : Codec Id} {ids ids' : Ids Id} {R R' : Repo Id} {src src' : Source Id}

/-- What is at a path: a directory, a file or a symlink, and where it leads. -/
def shownAt (d : Dir Bytes) (p : Path) : Option Told := (entry d p).bind Told.ofEntry

theorem shown_entry {PF : List Id → Bytes → Prop} {x : Node Id} {e : Meta × Option (Leaf Bytes)} (h : NodeIs PF x e) :
    Told.ofEntry e = some (Told.ofContents x.contents) := by
  obtain ⟨c, md⟩ := x
  obtain ⟨em, l⟩ := e
  rcases c <;> rcases l with _ | _ | _ | _ <;> first | exact h.elim | skip
  all_goals simp only [NodeIs] at h
  all_goals simp_all [Told.ofEntry, Told.ofContents]

theorem plain_of {PF : List Id → Bytes → Prop} {d : Dir Bytes} (hp : PlainDir d) {p : Path} {x : Node Id}
    {e : Meta × Option (Leaf Bytes)} (he : entry d p = some e) (hx : NodeIs PF x e) : Plain (p, x) where
  ne := by rintro rfl; cases d <;> simp [entry] at he
  names := hp.names p e he
  target := fun t ht => hp.targets p e t he (by
    have h : x.contents = .link t := ht
    rw [shown_entry hx, h]; rfl)

/-- What is listed is what there is, in order. -/
theorem listed (hH : Healthy C ids R) (ho : Opens R src) {i : Id} {s : Snapshot Id} (hs : (i, s) ∈ R.snapshots)
    {d : Dir Bytes} (hd : Holds C R s.tree d) : ∃ L, ls C src s = .ok L ∧
      (∀ p x, (p, x) ∈ L → ∃ e, entry d p = some e ∧ NodeIs (FileHolds C R) x e) ∧
      (∀ p k, (p, k) ∈ L.map shown ↔ shownAt d p = some k) ∧ L.Pairwise (fun a b => a.1 < b.1) := by
  obtain ⟨L, d', h1, h2, h3, h4, h5⟩ := C43.lists hH ho hs
  cases holds_one hH.sound h2 hd
  refine ⟨L, h1, h3, ?_, h5⟩
  intro p k
  rw [List.mem_map]
  constructor
  · rintro ⟨⟨q, x⟩, hx, he⟩
    obtain ⟨e, g1, g2⟩ := h3 q x hx
    simp only [shown, Prod.mk.injEq] at he
    obtain ⟨rfl, rfl⟩ := he
    rw [shownAt, g1, Option.bind_some, shown_entry g2]
  · intro h
    rw [shownAt, Option.bind_eq_some_iff] at h
    obtain ⟨e, g1, g2⟩ := h
    obtain ⟨x, g3, g4⟩ := h4 p e g1
    refine ⟨(p, x), g3, ?_⟩
    rw [shown_entry g4, Option.some.injEq] at g2
    rw [shown, g2]

omit [LinearOrder Id] in
/-- What `printer` writes depends only on what a reader is to learn. -/
theorem lsText_of_shown {L L' : List (Line Id)} (h : L.map shown = L'.map shown) : lsText L = lsText L' := by
  let f : Path × Told → Bytes := fun e => pathString e.1 ++
    (match e.2 with
      | .dir => if hasTrailingSlash (pathString e.1) then [] else [47]
      | .file => []
      | .link t => [32, 45, 62, 32] ++ t) ++ [10]
  have hf : ∀ M : List (Line Id), lsText M = (M.map shown).flatMap f := by
    intro M
    rw [List.flatMap_map, lsText]
    congr 1
    funext ⟨p, c, md⟩
    cases c <;> rfl
  rw [hf, hf, h]

theorem sorted_ext {L L' : List (Path × Told)} (h : L.Pairwise (fun a b => a.1 < b.1))
    (h' : L'.Pairwise (fun a b => a.1 < b.1)) (hm : ∀ e, e ∈ L ↔ e ∈ L') : L = L' := by
  have n1 : L.Nodup := h.imp (fun g e => by rw [e] at g; exact lt_irrefl _ g)
  have n2 : L'.Nodup := h'.imp (fun g e => by rw [e] at g; exact lt_irrefl _ g)
  exact ((List.perm_ext_iff_of_nodup n1 n2).mpr hm).eq_of_pairwise
    (fun a b _ _ g1 g2 => absurd (lt_trans g1 g2) (lt_irrefl _)) h h'

/-- Two snapshots, of one repository or of two, with plain names: `ls` prints the same text for both if
and only if they have the same paths, with the same kinds of things at them and the same targets of
symlinks. -/
theorem ls_tells_partial (hH : Healthy C ids R) (ho : Opens R src) {i : Id} {s : Snapshot Id} (hs : (i, s) ∈ R.snapshots)
    (hH' : Healthy C ids' R') (ho' : Opens R' src') {i' : Id} {s' : Snapshot Id} (hs' : (i', s') ∈ R'.snapshots)
    {d d' : Dir Bytes} (hd : Holds C R s.tree d) (hd' : Holds C R' s'.tree d') (hp : PlainDir d) (hp' : PlainDir d') :
    ∃ L L', ls C src s = .ok L ∧ ls C src' s' = .ok L' ∧ (lsText L = lsText L' ↔ ∀ p, shownAt d p = shownAt d' p) := by
  obtain ⟨L, h1, h2, h3, h4⟩ := listed hH ho hs hd
  obtain ⟨L', g1, g2, g3, g4⟩ := listed hH' ho' hs' hd'
  refine ⟨L, L', h1, g1, ?_, ?_⟩
  · intro he
    have hm := lsText_inj (fun ⟨p, x⟩ hx => by obtain ⟨e, a, b⟩ := h2 p x hx; exact plain_of hp a b)
      (fun ⟨p, x⟩ hx => by obtain ⟨e, a, b⟩ := g2 p x hx; exact plain_of hp' a b) he
    intro p
    apply Option.ext
    intro k
    rw [← h3, ← g3, hm]
  · intro he
    apply lsText_of_shown
    apply sorted_ext (List.pairwise_map.mpr h4) (List.pairwise_map.mpr g4)
    rintro ⟨p, k⟩
    rw [h3, g3, he]

theorem metaDiff_ok (l r : Meta) : SignOk (.md (metaDiffChar l r)) := by
  simp only [SignOk]
  unfold metaDiffChar
  split
  · split
    · decide
    · split
      · decide
      · split
        · decide
        · split <;> decide
  · decide

/-- A path is added, or replaced by something else. -/
def Added (d1 d2 : Dir Bytes) (p : Path) : Prop :=
  ∃ e, entry d2 p = some e ∧ ∀ e', entry d1 p = some e' → C38.Differ e' e

/-- A path is removed, or replaced by something else. -/
def Removed (d1 d2 : Dir Bytes) (p : Path) : Prop :=
  ∃ e, entry d1 p = some e ∧ ∀ e', entry d2 p = some e' → C38.Differ e e'

/-- Every line of `diff` is for an entry of one of the snapshots and has one of its eight letters. -/
theorem reported {m : Bool} (hH : Healthy C ids R) (ho : Opens R src) {s1 s2 : Snapshot Id} {d1 d2 : Dir Bytes}
    (hd1 : Holds C R s1.tree d1) (hd2 : Holds C R s2.tree d2) (hk1 : d1.KindsOk) (hk2 : d2.KindsOk) {L : List (DiffLine Id)}
    (hL : diffSnapshots C src m s1 s2 = .ok L) {sg : Sign} {p : Path} {x : Node Id} (hx : (sg, p, x) ∈ L) :
    SignOk sg ∧ ∃ d, (d = d1 ∨ d = d2) ∧ ∃ e, entry d p = some e ∧ NodeIs (FileHolds C R) x e := by
  obtain ⟨F1, cache, g1, l1, hc⟩ := load_from hH.sound ho hd1 newTreeCache_ok
  obtain ⟨F2, cache', g2, l2, _⟩ := load_from hH.sound ho hd2 hc
  obtain ⟨L', h1, _, h3⟩ := C38.exactly (m := m) (C38.comparable hH l1 l2 hd1 hd2 hk1 hk2)
  simp only [diffSnapshots, g1, g2, h1, Except.ok.injEq] at hL
  subst hL
  have old : ∀ y, nodeAt F1 s1.tree p = some y → ∃ d, (d = d1 ∨ d = d2) ∧ ∃ e, entry d p = some e ∧
      NodeIs (FileHolds C R) y e := by
    intro y hy
    rcases l1.entry_rel p with ⟨a1, _⟩ | ⟨y', e, a1, a2, a3⟩
    · rw [hy] at a1; cases a1
    · rw [hy] at a1; cases a1; exact ⟨d1, .inl rfl, e, a2, a3⟩
  have new : ∀ y, nodeAt F2 s2.tree p = some y → ∃ d, (d = d1 ∨ d = d2) ∧ ∃ e, entry d p = some e ∧
      NodeIs (FileHolds C R) y e := by
    intro y hy
    rcases l2.entry_rel p with ⟨a1, _⟩ | ⟨y', e, a1, a2, a3⟩
    · rw [hy] at a1; cases a1
    · rw [hy] at a1; cases a1; exact ⟨d2, .inr rfl, e, a2, a3⟩
  have hr := (h3 _ _ _).mp hx
  cases sg with
  | plus => exact ⟨trivial, new _ hr.1⟩
  | minus => exact ⟨trivial, old _ hr.1⟩
  | changed => exact ⟨trivial, old _ hr.1⟩
  | md c =>
    obtain ⟨_, h5, y, _, _, h6, _⟩ := hr
    exact ⟨h6 ▸ metaDiff_ok _ _, new _ h5⟩

/-- Two pairs of snapshots with plain names: if `diff` prints the same text for both, its lines are the
same - the same letters for the same paths, with the same kinds and targets. So what has been added
and removed is the same. -/
theorem diff_tells_partial {m m' : Bool} (hH : Healthy C ids R) (ho : Opens R src) {s1 s2 : Snapshot Id} {d1 d2 : Dir Bytes}
    (hd1 : Holds C R s1.tree d1) (hd2 : Holds C R s2.tree d2) (hk1 : d1.KindsOk) (hk2 : d2.KindsOk)
    (hp1 : PlainDir d1) (hp2 : PlainDir d2)
    (hH' : Healthy C ids' R') (ho' : Opens R' src') {s1' s2' : Snapshot Id} {d1' d2' : Dir Bytes}
    (hd1' : Holds C R' s1'.tree d1') (hd2' : Holds C R' s2'.tree d2') (hk1' : d1'.KindsOk) (hk2' : d2'.KindsOk)
    (hp1' : PlainDir d1') (hp2' : PlainDir d2') :
    ∃ L L', diffSnapshots C src m s1 s2 = .ok L ∧ diffSnapshots C src' m' s1' s2' = .ok L' ∧
      (diffText L = diffText L' →
        L.map (fun e => (e.1, e.2.1, Told.ofContents e.2.2.contents)) =
          L'.map (fun e => (e.1, e.2.1, Told.ofContents e.2.2.contents)) ∧
        ∀ p, (Added d1 d2 p ↔ Added d1' d2' p) ∧ (Removed d1 d2 p ↔ Removed d1' d2' p)) := by
  obtain ⟨L, h1, _, h2, h3, _⟩ := C38.snapshots (m := m) hH ho hd1 hd2 hk1 hk2
  obtain ⟨L', g1, _, g2, g3, _⟩ := C38.snapshots (m := m') hH' ho' hd1' hd2' hk1' hk2'
  refine ⟨L, L', h1, g1, ?_⟩
  intro he
  have hm : L.map shownD = L'.map shownD := diffText_inj
    (fun ⟨sg, p, x⟩ hx => by
      obtain ⟨a, d, hd, e, b, c⟩ := reported hH ho hd1 hd2 hk1 hk2 h1 hx
      refine ⟨a, ?_⟩
      rcases hd with rfl | rfl
      · exact plain_of hp1 b c
      · exact plain_of hp2 b c)
    (fun ⟨sg, p, x⟩ hx => by
      obtain ⟨a, d, hd, e, b, c⟩ := reported hH' ho' hd1' hd2' hk1' hk2' g1 hx
      refine ⟨a, ?_⟩
      rcases hd with rfl | rfl
      · exact plain_of hp1' b c
      · exact plain_of hp2' b c) he
  refine ⟨hm, ?_⟩
  have key : ∀ {M M' : List (DiffLine Id)}, M.map shownD = M'.map shownD → ∀ sg p, (∃ x, (sg, p, x) ∈ M) →
      ∃ x, (sg, p, x) ∈ M' := by
    rintro M M' hM sg p ⟨x, hx⟩
    have : shownD (sg, p, x) ∈ M'.map shownD := hM ▸ List.mem_map_of_mem hx
    obtain ⟨⟨sg', p', x'⟩, h5, h6⟩ := List.mem_map.mp this
    simp only [shownD, shown, Prod.mk.injEq] at h6
    obtain ⟨rfl, rfl, _⟩ := h6
    exact ⟨x', h5⟩
  intro p
  constructor
  · rw [Added, Added, ← h2, ← g2]; exact ⟨key hm _ _, key hm.symm _ _⟩
  · rw [Removed, Removed, ← h3, ← g3]; exact ⟨key hm _ _, key hm.symm _ _⟩

theorem statText_eq {L : List (StatLine Id)} (h : ∀ l ∈ L, l.text = lineString l.about.2.1 l.about.2.2 ∧ l.size = none) :
    statText L = (L.map (·.about)).flatMap (fun e => 32 :: lineText e.1.text e.2) := by
  unfold statText
  rw [List.flatMap_map]
  induction L with
  | nil => rfl
  | cons l L ih =>
    rw [List.flatMap_cons, List.flatMap_cons, ih (fun x hx => h x (.tail _ hx)), (h l (.head _)).1, lineText_lineString]

/-- For a snapshot and the one before it, `snapshots --stat` prints the lines that `diff` prints for the two, each after a
space. -/
theorem stat_is_diff {m reverse : Bool} {g : Graphemes} {wanted : Id → Bool} (hH : Healthy C ids R) (ho : Opens R src)
    {snaps : List (Snap Id)} (hs : ∀ s ∈ snaps, C63.Held C R s.1) {out : List (Shown Id)}
    (h : showStat g C src m reverse wanted snaps = .ok out) {o : Shown Id} (hm : o ∈ out) :
    ∃ i, snaps[i]? = some o.snap ∧ ∀ j s, i = j + 1 → snaps[j]? = some s →
      ∃ L, diffSnapshots C src m s.1 o.snap.1 = .ok L ∧
        statText o.lines = (L.map (fun e => 32 :: lineText e.1.text e.2)).flatten := by
  obtain ⟨out', h1, _, h3⟩ := C63.stat (g := g) (m := m) hH ho hs wanted reverse
  rw [h] at h1
  cases h1
  obtain ⟨i, hr⟩ := h3 o hm
  refine ⟨i, hr.snap, fun j s hj hs' => ⟨_, hr.about.1 j s hj hs', ?_⟩⟩
  rw [statText_eq hr.text, List.flatMap_def]

theorem indented_tells {m m' : Bool} (hH : Healthy C ids R) (ho : Opens R src) {s1 s2 : Snapshot Id} {d1 d2 : Dir Bytes}
    (hd1 : Holds C R s1.tree d1) (hd2 : Holds C R s2.tree d2) (hk1 : d1.KindsOk) (hk2 : d2.KindsOk)
    (hp1 : PlainDir d1) (hp2 : PlainDir d2)
    (hH' : Healthy C ids' R') (ho' : Opens R' src') {s1' s2' : Snapshot Id} {d1' d2' : Dir Bytes}
    (hd1' : Holds C R' s1'.tree d1') (hd2' : Holds C R' s2'.tree d2') (hk1' : d1'.KindsOk) (hk2' : d2'.KindsOk)
    (hp1' : PlainDir d1') (hp2' : PlainDir d2') {L L' : List (DiffLine Id)}
    (hL : diffSnapshots C src m s1 s2 = .ok L) (hL' : diffSnapshots C src' m' s1' s2' = .ok L')
    (he : (L.map (fun e => 32 :: lineText e.1.text e.2)).flatten = (L'.map (fun e => 32 :: lineText e.1.text e.2)).flatten) :
    L.map (fun e => (e.1, e.2.1, Told.ofContents e.2.2.contents)) =
        L'.map (fun e => (e.1, e.2.1, Told.ofContents e.2.2.contents)) ∧
      ∀ p, (Added d1 d2 p ↔ Added d1' d2' p) ∧ (Removed d1 d2 p ↔ Removed d1' d2' p) := by
  obtain ⟨M, M', h1, h2, h3⟩ := diff_tells_partial (m := m) (m' := m') hH ho hd1 hd2 hk1 hk2 hp1 hp2 hH' ho' hd1' hd2' hk1'
    hk2' hp1' hp2'
  rw [hL] at h1
  rw [hL'] at h2
  cases h1; cases h2
  refine h3 (indented_inj (fun ⟨sg, p, x⟩ hx => ?_) (fun ⟨sg, p, x⟩ hx => ?_) (by
    rw [List.flatMap_def, List.flatMap_def]; exact he))
  · obtain ⟨a, d, hd, e, b, c⟩ := reported hH ho hd1 hd2 hk1 hk2 hL hx
    refine ⟨a, ?_⟩
    rcases hd with rfl | rfl
    · exact plain_of hp1 b c
    · exact plain_of hp2 b c
  · obtain ⟨a, d, hd, e, b, c⟩ := reported hH' ho' hd1' hd2' hk1' hk2' hL' hx
    refine ⟨a, ?_⟩
    rcases hd with rfl | rfl
    · exact plain_of hp1' b c
    · exact plain_of hp2' b c

/-- Two snapshots that `snapshots --stat` shows, of one repository or of two, each with one before it, and plain names in all
four: if it prints the same for both, the same has been added and removed. -/
theorem stat_tells_partial {m m' reverse reverse' : Bool} {g g' : Graphemes} {wanted wanted' : Id → Bool}
    (hH : Healthy C ids R) (ho : Opens R src) (hH' : Healthy C ids' R') (ho' : Opens R' src') {snaps snaps' : List (Snap Id)}
    (hs : ∀ s ∈ snaps, C63.Held C R s.1) (hs' : ∀ s ∈ snaps', C63.Held C R' s.1) {out out' : List (Shown Id)}
    (h : showStat g C src m reverse wanted snaps = .ok out) (h' : showStat g' C src' m' reverse' wanted' snaps' = .ok out')
    {o o' : Shown Id} (hm : o ∈ out) (hm' : o' ∈ out') :
    ∃ i i', snaps[i]? = some o.snap ∧ snaps'[i']? = some o'.snap ∧
      ∀ j j' s s' d1 d2 d1' d2', i = j + 1 → i' = j' + 1 → snaps[j]? = some s → snaps'[j']? = some s' →
        Holds C R s.1.tree d1 → Holds C R o.snap.1.tree d2 → Holds C R' s'.1.tree d1' → Holds C R' o'.snap.1.tree d2' →
        PlainDir d1 → PlainDir d2 → PlainDir d1' → PlainDir d2' → statText o.lines = statText o'.lines →
        ∀ p, (Added d1 d2 p ↔ Added d1' d2' p) ∧ (Removed d1 d2 p ↔ Removed d1' d2' p) := by
  obtain ⟨i, h1, h2⟩ := stat_is_diff hH ho hs h hm
  obtain ⟨i', h1', h2'⟩ := stat_is_diff hH' ho' hs' h' hm'
  refine ⟨i, i', h1, h1', ?_⟩
  intro j j' s s' d1 d2 d1' d2' hi hi' hj hj' a1 a2 a1' a2' p1 p2 p1' p2' he
  obtain ⟨L, g1, g2⟩ := h2 j s hi hj
  obtain ⟨L', g1', g2'⟩ := h2' j' s' hi' hj'
  have kinds : ∀ {R : Repo Id} {ids : Ids Id} {snaps : List (Snap Id)} {i : Nat} {s : Snap Id} {d : Dir Bytes},
      Healthy C ids R → (∀ s ∈ snaps, C63.Held C R s.1) → snaps[i]? = some s → Holds C R s.1.tree d → d.KindsOk := by
    intro R ids snaps i s d hH hs hi hd
    obtain ⟨d', k1, k2⟩ := hs s (List.mem_of_getElem? hi)
    cases holds_one hH.sound hd k1
    exact k2
  exact (indented_tells hH ho a1 a2 (kinds hH hs hj a1) (kinds hH hs h1 a2) p1 p2 hH' ho' a1' a2' (kinds hH' hs' hj' a1')
    (kinds hH' hs' h1' a2') p1' p2' g1 g1' (by rw [← g2, ← g2', he])).2

/-! ## Names that are not plain -/

/-- A file called `a -> b`. -/
def treeF : Tree ObjectId := [(ascii "a -> b", ⟨.file [Demo.chunkA.id], Demo.fileMd 3 5⟩)]

/-- A symlink `a` that leads to `b`. -/
def treeL : Tree ObjectId := [(ascii "a", ⟨.link (ascii "b"), Demo.linkMd⟩)]

/-- A file called `z`. -/
def treeZ : Tree ObjectId := [(ascii "z", ⟨.file [Demo.chunkA.id], Demo.fileMd 3 5⟩)]

/-- The same and a file whose name has a newline and what looks like a line of `diff` in it. -/
def treeN : Tree ObjectId := [(ascii "x\n- y", ⟨.file [Demo.chunkA.id], Demo.fileMd 3 5⟩),
  (ascii "z", ⟨.file [Demo.chunkA.id], Demo.fileMd 3 5⟩)]

/-- A file called `x`. -/
def treeX : Tree ObjectId := [(ascii "x", ⟨.file [Demo.chunkA.id], Demo.fileMd 3 5⟩)]

/-- A file called `y`. -/
def treeY : Tree ObjectId := [(ascii "y", ⟨.file [Demo.chunkA.id], Demo.fileMd 3 5⟩)]

def snapF : Snapshot ObjectId := Demo.snapOf (Demo.treeBlob treeF) 1
def snapL : Snapshot ObjectId := Demo.snapOf (Demo.treeBlob treeL) 2
def snapN : Snapshot ObjectId := Demo.snapOf (Demo.treeBlob treeN) 3
def snapX : Snapshot ObjectId := Demo.snapOf (Demo.treeBlob treeX) 4
def snapY : Snapshot ObjectId := Demo.snapOf (Demo.treeBlob treeY) 5
def snapZ : Snapshot ObjectId := Demo.snapOf (Demo.treeBlob treeZ) 6

def repoT : Repo ObjectId :=
  Demo.repoOf Demo.pruneIds [[Demo.chunkA], [Demo.treeBlob treeF, Demo.treeBlob treeL, Demo.treeBlob treeN,
    Demo.treeBlob treeX, Demo.treeBlob treeY, Demo.treeBlob treeZ]] [snapF, snapL, snapN, snapX, snapY, snapZ]

theorem healthyT : Healthy Demo.codec Demo.pruneIds repoT := Check.healthy_sound (k := 3) (by decide +kernel)

def dirF : Dir Bytes := .leaf (ascii "a -> b") (Demo.fileMd 3 5) (.file Demo.chunkA.data) .nil
def dirL : Dir Bytes := .leaf (ascii "a") Demo.linkMd (.link (ascii "b")) .nil
def dirZ : Dir Bytes := .leaf (ascii "z") (Demo.fileMd 3 5) (.file Demo.chunkA.data) .nil
def dirN : Dir Bytes := .leaf (ascii "x\n- y") (Demo.fileMd 3 5) (.file Demo.chunkA.data) dirZ
def dirX : Dir Bytes := .leaf (ascii "x") (Demo.fileMd 3 5) (.file Demo.chunkA.data) .nil
def dirY : Dir Bytes := .leaf (ascii "y") (Demo.fileMd 3 5) (.file Demo.chunkA.data) .nil

theorem holdsA : FileHolds Demo.codec repoT [Demo.chunkA.id] Demo.chunkA.data := by
  have := FileHolds.cons (C := Demo.codec) (R := repoT) (x := Demo.chunkA.data) (c := Demo.chunkA.id)
    (Check.has_iff.mpr (by decide +kernel)) .nil
  simpa using this

theorem holdsF : Holds Demo.codec repoT snapF.tree dirF :=
  ⟨treeF, ⟨Check.okTree_sound (by decide +kernel), by decide +kernel, .inr (Check.has_iff.mpr (by decide +kernel))⟩,
    .file holdsA .nil⟩

theorem holdsL : Holds Demo.codec repoT snapL.tree dirL :=
  ⟨treeL, ⟨Check.okTree_sound (by decide +kernel), by decide +kernel, .inr (Check.has_iff.mpr (by decide +kernel))⟩,
    .link .nil⟩

theorem holdsN : Holds Demo.codec repoT snapN.tree dirN :=
  ⟨treeN, ⟨Check.okTree_sound (by decide +kernel), by decide +kernel, .inr (Check.has_iff.mpr (by decide +kernel))⟩,
    .file holdsA (.file holdsA .nil)⟩

theorem holdsZ : Holds Demo.codec repoT snapZ.tree dirZ :=
  ⟨treeZ, ⟨Check.okTree_sound (by decide +kernel), by decide +kernel, .inr (Check.has_iff.mpr (by decide +kernel))⟩,
    .file holdsA .nil⟩

theorem holdsX : Holds Demo.codec repoT snapX.tree dirX :=
  ⟨treeX, ⟨Check.okTree_sound (by decide +kernel), by decide +kernel, .inr (Check.has_iff.mpr (by decide +kernel))⟩,
    .file holdsA .nil⟩

theorem holdsY : Holds Demo.codec repoT snapY.tree dirY :=
  ⟨treeY, ⟨Check.okTree_sound (by decide +kernel), by decide +kernel, .inr (Check.has_iff.mpr (by decide +kernel))⟩,
    .file holdsA .nil⟩

/-- `ls` prints the same for a snapshot of a file called `a -> b` and for one of a symlink `a` to `b`:
what it prints does not tell what is in a snapshot. -/
theorem ls_does_not_tell : ¬ ∀ (R : Repo ObjectId) (src : Source ObjectId), Healthy Demo.codec Demo.pruneIds R → Opens R src →
    ∀ i s i' s', (i, s) ∈ R.snapshots → (i', s') ∈ R.snapshots →
    ∀ d d', Holds Demo.codec R s.tree d → Holds Demo.codec R s'.tree d' →
    ∀ L L', ls Demo.codec src s = .ok L → ls Demo.codec src s' = .ok L' → lsText L = lsText L' →
    ∀ p, shownAt d p = shownAt d' p := by
  intro h
  have h1 := listed healthyT (Check.opened_opens healthyT) (i := Demo.pruneIds.snapId snapF) (s := snapF)
    (by decide +kernel) holdsF
  have h2 := listed healthyT (Check.opened_opens healthyT) (i := Demo.pruneIds.snapId snapL) (s := snapL)
    (by decide +kernel) holdsL
  obtain ⟨L, a, _⟩ := h1
  obtain ⟨L', b, _⟩ := h2
  have ht : (ls Demo.codec (Check.opened repoT) snapF).toOption.map lsText =
      (ls Demo.codec (Check.opened repoT) snapL).toOption.map lsText := by decide +kernel
  rw [a, b] at ht
  have := h repoT (Check.opened repoT) healthyT (Check.opened_opens healthyT) (Demo.pruneIds.snapId snapF) snapF
    (Demo.pruneIds.snapId snapL) snapL (by decide +kernel) (by decide +kernel) dirF dirL holdsF holdsL L L' a b
    (by simpa [Except.toOption] using ht) [ascii "a"]
  revert this
  decide +kernel

/-- `diff` prints the same for two pairs of snapshots: in one, a file called `y` has been removed; in the
other it never was there, and a file has been added with a newline and `- y` in its name. -/
theorem diff_does_not_tell : ∃ (R : Repo ObjectId) (src : Source ObjectId) (s1 s2 s1' s2' : Snapshot ObjectId)
    (d1 d2 d1' d2' : Dir Bytes) (L L' : List (DiffLine ObjectId)) (p : Path), Healthy Demo.codec Demo.pruneIds R ∧
    Opens R src ∧ Holds Demo.codec R s1.tree d1 ∧ Holds Demo.codec R s2.tree d2 ∧ Holds Demo.codec R s1'.tree d1' ∧
    Holds Demo.codec R s2'.tree d2' ∧ diffSnapshots Demo.codec src false s1 s2 = .ok L ∧
    diffSnapshots Demo.codec src false s1' s2' = .ok L' ∧ diffText L = diffText L' ∧
    diffText L = ascii "+ x\n- y\n" ∧ Removed d1 d2 p ∧ ∀ e, entry d1' p ≠ some e := by
  refine ⟨repoT, Check.opened repoT, snapY, snapX, snapZ, snapN, dirY, dirX, dirZ, dirN,
    [(.plus, [ascii "x"], ⟨.file [Demo.chunkA.id], Demo.fileMd 3 5⟩),
      (.minus, [ascii "y"], ⟨.file [Demo.chunkA.id], Demo.fileMd 3 5⟩)],
    [(.plus, [ascii "x\n- y"], ⟨.file [Demo.chunkA.id], Demo.fileMd 3 5⟩)], [ascii "y"], healthyT,
    Check.opened_opens healthyT, holdsY, holdsX, holdsZ, holdsN, by decide +kernel, by decide +kernel, by decide +kernel,
    by decide +kernel, ?_, ?_⟩
  · refine ⟨(Demo.fileMd 3 5, some (.file Demo.chunkA.data)), by decide +kernel, ?_⟩
    intro e he
    have : entry dirX [ascii "y"] = none := by decide +kernel
    rw [this] at he
    cases he
  · intro e he
    have : entry dirZ [ascii "y"] = none := by decide +kernel
    rw [this] at he
    cases he

/-! ## Examples -/

theorem plain1 : PlainDir C38.dir1 := AllPlain.plainDir
  ⟨⟨by decide, by decide, by decide, by decide +kernel⟩, (fun _ h => by cases h),
    ⟨by decide, by decide, by decide, by decide +kernel⟩,
    ⟨⟨by decide, by decide, by decide, by decide +kernel⟩, (fun _ h => by cases h), trivial⟩,
    ⟨by decide, by decide, by decide, by decide +kernel⟩, (fun _ h => by cases h; decide +kernel), trivial⟩

theorem plain2 : PlainDir C38.dir2 := AllPlain.plainDir
  ⟨⟨by decide, by decide, by decide, by decide +kernel⟩, (fun _ h => by cases h),
    ⟨by decide, by decide, by decide, by decide +kernel⟩, (fun _ h => by cases h),
    ⟨by decide, by decide, by decide, by decide +kernel⟩, (fun _ h => by cases h; decide +kernel),
    ⟨by decide, by decide, by decide, by decide +kernel⟩,
    ⟨⟨by decide, by decide, by decide, by decide +kernel⟩, (fun _ h => by cases h), trivial⟩, trivial⟩

/-- Two snapshots with files, directories and symlinks. -/
example : Healthy Demo.codec Demo.pruneIds C38.repo12 ∧ Opens C38.repo12 (Check.opened C38.repo12) ∧
    (Demo.pruneIds.snapId C38.snap1, C38.snap1) ∈ C38.repo12.snapshots ∧
    (Demo.pruneIds.snapId C38.snap2, C38.snap2) ∈ C38.repo12.snapshots ∧
    Holds Demo.codec C38.repo12 C38.snap1.tree C38.dir1 ∧ Holds Demo.codec C38.repo12 C38.snap2.tree C38.dir2 ∧
    C38.dir1.KindsOk ∧ C38.dir2.KindsOk ∧ PlainDir C38.dir1 ∧ PlainDir C38.dir2 :=
  ⟨C38.healthy12, Check.opened_opens C38.healthy12, by decide +kernel, by decide +kernel, C38.holds1, C38.holds2, by
    simp only [C38.dir1, C38.dirB, Dir.KindsOk]; decide +kernel, by
    simp only [C38.dir2, C38.dirB, Dir.KindsOk]; decide +kernel, plain1, plain2⟩

theorem example_ls : (ls Demo.codec (Check.opened C38.repo12) C38.snap1).toOption.map lsText =
    some (ascii "a\nd/\nd/b\nl -> /etc\n") := by decide +kernel

theorem example_diff : (diffSnapshots Demo.codec (Check.opened C38.repo12) true C38.snap1 C38.snap2).toOption.map diffText =
    some (ascii "C a\n- d/\n- d/b\n+ d\n- l -> /etc\n+ l -> /usr\n+ n/\n+ n/b\n") := by decide +kernel

theorem example_stat : (showStat C63.bytewise Demo.codec (Check.opened C38.repo12) true false (fun _ => true)
      C63.snapsE).toOption.map (fun l => l.map fun o => statText o.lines) =
    some [ascii " + a\n + d/\n + d/b\n + l -> /etc\n",
      ascii " C a\n - d/\n - d/b\n + d\n - l -> /etc\n + l -> /usr\n + n/\n + n/b\n"] := by decide +kernel

end Backpak.C94

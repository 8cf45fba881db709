import Verif.Spec.Genuine
import Verif.Lemmas.Intact
import Verif.Lemmas.ReadBack
import Verif.Lemmas.Path
import Verif.Model.Dump
import Verif.Model.Restore
import Verif.Model.Copy
import Verif.Model.Prune

/-!
# Reading from a source whose packs can be anything, beside reading from the repository as it was
-/

namespace Backpak.Genuine

open Spec

variable {Id : Type} [LinearOrder Id] {C : Codec Id} {R : Repo Id} {src bad : Source Id}

/-! ## Trees -/

/-- A cache of trees in which no ID of the repository has another tree than there. -/
structure CacheTrue (C : Codec Id) (R : Repo Id) (cache : Forest Id) : Prop where
  sorted : BMap.Sorted cache
  empty : cache.get? C.emptyId = some []
  right : ∀ id t u, cache.get? id = some t → TreeAt C R id u → t = u

theorem newTreeCache_true (hS : Sound C R) : CacheTrue C R (newTreeCache C) :=
  ⟨newTreeCache_ok.sorted (R := R), newTreeCache_ok.empty (R := R),
    fun id t _ ht hu => hS.treeAt_one (newTreeCache_ok.sound id t ht) hu⟩

omit [LinearOrder Id] in
/-- Bytes that decode to a tree and have the hash of a tree of the repository. -/
theorem tree_genuine (hN : NoForgery C R bad) {bs : Bytes} {id : Id} {t u : Tree Id} (hs : Served bad bs)
    (hh : C.hash bs = id) (hd : C.decTree bs = some (t, [])) (hu : TreeAt C R id u) (hne : u ≠ []) : t = u := by
  obtain ⟨h1, h2, h3⟩ := hu
  have h4 := h3.resolve_left hne
  have := hN bs _ hs h4 hh
  dsimp only at this
  rw [this, C.dec_enc u h1] at hd
  simp only [Option.some.injEq, Prod.mk.injEq, and_true] at hd
  exact hd.symm

theorem treeRead_genuine (hl : Local C.decTree) (hN : NoForgery C R bad) {cache cache' : Forest Id}
    (hc : CacheTrue C R cache) {id : Id} {t : Tree Id} (h : treeRead C bad cache id = .ok (t, cache')) :
    CacheTrue C R cache' ∧ cache'.get? id = some t := by
  unfold treeRead at h
  split at h
  · rename_i t' ht
    simp only [Except.ok.injEq, Prod.mk.injEq] at h
    obtain ⟨rfl, rfl⟩ := h
    exact ⟨hc, ht⟩
  · split at h
    · simp at h
    · rename_i p hp
      split at h
      · simp at h
      · rename_i s hs
        split at h
        · simp at h
        · rename_i m hm
          split at h
          · simp at h
          · rename_i c2 hc2
            split at h
            · simp at h
            · rename_i t2 ht2
              simp only [Except.ok.injEq, Prod.mk.injEq] at h
              obtain ⟨rfl, rfl⟩ := h
              obtain ⟨h1, h2, h3⟩ := Intact.appendLoop_infix hl m s cache c2 hc.sorted hc2
              refine ⟨⟨h1, h2 _ _ hc.empty, fun i a u ha hu => ?_⟩, ht2⟩
              by_cases hne : u = []
              · subst hne
                have : i = C.emptyId := hu.2.1.symm
                subst this
                rw [h2 _ _ hc.empty] at ha
                exact (Option.some.inj ha).symm
              · rcases h3 i a ha with h | ⟨bs, a1, a2, a3, _⟩
                · exact hc.right i a u h hu
                · exact tree_genuine hN ⟨p, s, hs, a3⟩ a1 a2 hu hne

/-- Appending the same tree from both gives the same forest, if both succeed. -/
theorem appendTree_same (hl : Local C.decTree) (hN : NoForgery C R bad) (hS : Sound C R) (ho : Opens R src)
    (n : Nat) : ∀ (k : Nat) (st st' : List Id) (id : Id) (f cb cg fb cb' fg cg' : Forest Id),
    CacheTrue C R cb → CacheOk C R cg →
    appendTree C bad n st id (f, cb) = .ok (fb, cb') → appendTree C src k st' id (f, cg) = .ok (fg, cg') →
    fb = fg ∧ CacheTrue C R cb' ∧ CacheOk C R cg' := by
  induction n with
  | zero => intro k st st' id f cb cg fb cb' fg cg' _ _ h; simp [appendTree] at h
  | succ n ih =>
    intro k st st' id f cb cg fb cb' fg cg' hb hg h h'
    cases k with
    | zero => simp [appendTree] at h'
    | succ k =>
      unfold appendTree at h h'
      split at h
      · simp at h
      split at h'
      · simp at h'
      split at h
      · simp at h
      rename_i t c1 ht
      split at h'
      · simp at h'
      rename_i t' c1' ht'
      obtain ⟨a1, a2⟩ := treeRead_genuine hl hN hb ht
      obtain ⟨b1, b2, _⟩ := treeRead_sound hS ho hg ht'
      have : t = t' := a1.right id t t' a2 b1
      subst this
      have loop : ∀ (l : Tree Id) (f cb cg fb cb' fg cg' : Forest Id), CacheTrue C R cb → CacheOk C R cg →
          forSubtrees (appendTree C bad n (id :: st)) l (f, cb) = .ok (fb, cb') →
          forSubtrees (appendTree C src k (id :: st')) l (f, cg) = .ok (fg, cg') →
          fb = fg ∧ CacheTrue C R cb' ∧ CacheOk C R cg' := by
        intro l
        induction l with
        | nil =>
          intro f cb cg fb cb' fg cg' hb hg h h'
          simp only [forSubtrees, Except.ok.injEq, Prod.mk.injEq] at h h'
          obtain ⟨rfl, rfl⟩ := h
          obtain ⟨rfl, rfl⟩ := h'
          exact ⟨rfl, hb, hg⟩
        | cons e l ihl =>
          intro f cb cg fb cb' fg cg' hb hg h h'
          obtain ⟨m, c, md⟩ := e
          cases c with
          | file cs => exact ihl _ _ _ _ _ _ _ hb hg h h'
          | link tg => exact ihl _ _ _ _ _ _ _ hb hg h h'
          | dir sub =>
            unfold forSubtrees at h h'
            split at h
            · simp at h
            rename_i s1 hs1
            split at h'
            · simp at h'
            rename_i s1' hs1'
            obtain ⟨f1, d1⟩ := s1
            obtain ⟨f1', d1'⟩ := s1'
            obtain ⟨rfl, e2, e3⟩ := ih _ _ _ _ _ _ _ _ _ _ _ hb hg hs1 hs1'
            exact ihl _ _ _ _ _ _ _ e2 e3 h h'
      exact loop t _ _ _ _ _ _ _ a1 b2 h h'

/-! ## Chunks -/

/-- What holds of all chunks in the cache and of all chunks a pack can give holds of what is read. -/
theorem readBlob_inv {H : Bytes → Id} {P : Id → Bytes → Prop} {env : CacheEnv Id} {s s' : ReaderState Id} {id : Id} {x : Bytes}
    (hs : ∀ e ∈ s.entries, P e.id e.chunk)
    (hload : ∀ p m st l n, src.read p = .ok st → src.index.packs.get? p = some m →
      Pack.loadLoop H m st = .ok (l, n) → ∀ c ∈ l, P c.1 c.2)
    (h : readBlob H src env s id = .ok (x, s')) : P id x ∧ ∀ e ∈ s'.entries, P e.id e.chunk := by
  have hget : ∀ s s' : ReaderState Id, ∀ x, (∀ e ∈ s.entries, P e.id e.chunk) →
      cacheGet env s id = some (x, s') → P id x ∧ ∀ e ∈ s'.entries, P e.id e.chunk := by
    intro s s' x hs hg
    unfold cacheGet at hg
    split at hg
    · simp at hg
    · rename_i e he
      obtain ⟨h1, h2⟩ := C33.find_some he
      simp only [Option.some.injEq, Prod.mk.injEq] at hg
      obtain ⟨rfl, rfl⟩ := hg
      refine ⟨h2 ▸ hs e h1, fun e' he' => ?_⟩
      obtain ⟨e2, h3, h4, h5, _⟩ := C33.mem_touch he'
      rw [h4, h5]
      exact hs e2 h3
  have hins : ∀ (l : List (Id × Bytes)) (s : ReaderState Id), (∀ c ∈ l, P c.1 c.2) →
      (∀ e ∈ s.entries, P e.id e.chunk) →
      ∀ e ∈ (l.foldl (fun s c => cacheInsert env s c.1 c.2) s).entries, P e.id e.chunk := by
    intro l
    induction l with
    | nil => exact fun s _ h => h
    | cons c l ih =>
      intro s hl h
      refine ih _ (fun d hd => hl d (List.mem_cons_of_mem _ hd)) ?_
      intro e he
      unfold cacheInsert at he
      beta_reduce at he
      split at he
      · obtain ⟨e2, h3, h4, h5, _⟩ := C33.mem_touch he
        rw [h4, h5]
        exact h e2 h3
      · rcases List.mem_append.mp he with he | he
        · exact h e he
        · rw [List.mem_singleton] at he
          subst he
          exact hl c (by simp)
  have hshrink : ∀ (n limit : Nat) (s s' : ReaderState Id), shrinkTo env limit n s = .ok s' →
      (∀ e ∈ s.entries, P e.id e.chunk) → ∀ e ∈ s'.entries, P e.id e.chunk := by
    intro n
    induction n with
    | zero =>
      intro limit s s' h hs
      simp only [shrinkTo, Except.ok.injEq] at h
      subst h
      exact hs
    | succ n ih =>
      intro limit s s' h hs
      unfold shrinkTo at h
      split at h
      · split at h
        · simp at h
        · split at h
          · exact ih limit _ s' h (fun e he => hs e (List.mem_of_mem_eraseIdx he))
          · simp at h
      · simp only [Except.ok.injEq] at h
        subst h
        exact hs
  unfold readBlob at h
  split at h
  · rename_i r hr
    simp only [Except.ok.injEq] at h
    subst h
    exact hget s s' x hs hr
  · split at h
    · simp at h
    · split at h
      · simp at h
      · rename_i hst
        split at h
        · simp at h
        · rename_i hm
          split at h
          · simp at h
          · rename_i chunks size hl
            simp only at h
            split at h
            · simp at h
            · rename_i s3 h3
              split at h
              · simp at h
              · rename_i r hr
                simp only [Except.ok.injEq] at h
                subst h
                refine hget s3 s' x (hshrink _ _ _ _ h3 ?_) hr
                exact hins chunks s (hload _ _ _ _ _ hst hm hl) hs

theorem loadLoop_infix {H : Bytes → Id} (m : Manifest Id) (s : Stream) (l : List (Id × Bytes)) (n : Nat)
    (h : Pack.loadLoop H m s = .ok (l, n)) : ∀ c ∈ l, H c.2 = c.1 ∧ c.2 <:+: s.data := by
  induction m generalizing s l n with
  | nil =>
    simp only [Pack.loadLoop, Except.ok.injEq, Prod.mk.injEq] at h
    obtain ⟨rfl, rfl⟩ := h
    simp
  | cons e m ih =>
    unfold Pack.loadLoop at h
    split at h
    · exact ih s l n h
    · split at h
      · simp at h
      · rename_i bs s' ht
        split at h
        · rename_i hid
          split at h
          · simp at h
          · rename_i l' n' hl
            simp only [Except.ok.injEq, Prod.mk.injEq] at h
            obtain ⟨rfl, rfl⟩ := h
            have hd := (Stream.take_ok ht).1
            intro c hc
            rcases List.mem_cons.mp hc with rfl | hc
            · exact ⟨hid.symm, by rw [hd]; exact (List.prefix_append _ _).isInfix⟩
            · obtain ⟨h1, h2⟩ := ih s' l' n' hl c hc
              exact ⟨h1, by rw [hd]; exact h2.trans (List.suffix_append _ _).isInfix⟩
        · simp at h

/-- A chunk reader in which everything cached hashes to its ID and is in some pack. -/
def FromPacks (C : Codec Id) (bad : Source Id) (s : ReaderState Id) : Prop :=
  ∀ e ∈ s.entries, C.hash e.chunk = e.id ∧ Served bad e.chunk

/-- A chunk reader in which everything cached is a chunk of the repository. -/
def Stored (C : Codec Id) (R : Repo Id) (s : ReaderState Id) : Prop :=
  ∀ e ∈ s.entries, Has C R ⟨e.chunk, e.id, .chunk⟩

omit [LinearOrder Id] in
theorem fromPacks_new : FromPacks C bad ReaderState.new := by simp [FromPacks, ReaderState.new]
omit [LinearOrder Id] in
theorem stored_new : Stored C R ReaderState.new := by simp [Stored, ReaderState.new]

theorem read_fromPacks {env : CacheEnv Id} {s s' : ReaderState Id} {id : Id} {x : Bytes} (hs : FromPacks C bad s)
    (h : readBlob C.hash bad env s id = .ok (x, s')) : (C.hash x = id ∧ Served bad x) ∧ FromPacks C bad s' := by
  refine readBlob_inv (P := fun i y => C.hash y = i ∧ Served bad y) hs ?_ h
  intro p m st l n h1 _ h3 c hc
  obtain ⟨a, b⟩ := loadLoop_infix m st l n h3 c hc
  exact ⟨a, p, st, h1, b⟩

theorem read_stored (hS : Sound C R) (ho : Opens R src) {env : CacheEnv Id} {s s' : ReaderState Id} {id : Id} {x : Bytes}
    (hs : Stored C R s) (h : readBlob C.hash src env s id = .ok (x, s')) :
    Has C R ⟨x, id, .chunk⟩ ∧ Stored C R s' := by
  refine readBlob_inv (P := fun i y => Has C R ⟨y, i, .chunk⟩) hs ?_ h
  intro p m st l n h1 h2 h3 c hc
  have hli := (opens_index hS ho _ _).mp h2
  obtain ⟨bs, hp, rfl⟩ := hS.present p m hli
  obtain ⟨st', h4, h5⟩ := ho.read p bs hp
  rw [h1] at h4
  cases h4
  obtain ⟨k, hk⟩ := hS.one_kind p _ hli
  have hk' : ∀ b ∈ bs, b.kind = k := fun b hb => hk _ (List.mem_map.mpr ⟨b, hb, rfl⟩)
  cases k with
  | tree =>
    obtain ⟨_, h6, _⟩ := Pack.loadLoop_sound C.hash _ _ _ _ h3
    have : (Pack.manifestOf bs).filter (fun e => e.kind = .chunk) = [] := by
      rw [List.filter_eq_nil_iff]
      intro e he
      rw [hk e he]
      simp
    rw [this] at h6
    rw [List.map_nil, List.map_eq_nil_iff] at h6
    subst h6
    cases hc
  | chunk =>
    rw [Pack.loadLoop_written C.hash bs (fun b hb => (hS.hashes p bs b hli hp hb).symm) hk' st h5] at h3
    simp only [Except.ok.injEq, Prod.mk.injEq] at h3
    rw [← h3.1] at hc
    obtain ⟨b, hb, rfl⟩ := List.mem_map.mp hc
    have := (hS.has_iff b).mpr ⟨p, bs, hli, hp, hb⟩
    have hkb := hk' b hb
    obtain ⟨d, i, k⟩ := b
    simp only at hkb
    subst hkb
    exact this

/-- Reading the chunks of a file of the repository gives the file, if it succeeds. -/
theorem reads_genuine (hN : NoForgery C R bad) {env : CacheEnv Id} {cs : List Id} {x : Bytes} (hx : FileHolds C R cs x) :
    ∀ {s s' : ReaderState Id} {parts : List Bytes}, FromPacks C bad s →
      readBlobs C.hash bad env s cs = .ok (parts, s') → parts.flatten = x := by
  induction hx with
  | nil =>
    intro s s' parts _ h
    simp only [readBlobs, Except.ok.injEq, Prod.mk.injEq] at h
    rw [← h.1]; rfl
  | @cons c x cs y hc _ ih =>
    intro s s' parts hs h
    unfold readBlobs at h
    split at h
    · simp at h
    · rename_i z s1 h1
      split at h
      · simp at h
      · rename_i zs s2 h2
        simp only [Except.ok.injEq, Prod.mk.injEq] at h
        obtain ⟨rfl, rfl⟩ := h
        obtain ⟨⟨a1, a2⟩, a3⟩ := read_fromPacks hs h1
        rw [List.flatten_cons, ih a3 h2, hN z _ a2 hc a1]

/-! ## Forests, printed entries and restores -/

/-- The forest of a snapshot of the repository is the one there was, if it can be loaded. -/
theorem forest_same (hl : Local C.decTree) (hN : NoForgery C R bad) (hS : Sound C R) (ho : Opens R src) {root : Id}
    {d : Dir Bytes} (hd : Holds C R root d) {cb cg : Forest Id} (hcb : CacheTrue C R cb) (hcg : CacheOk C R cg)
    {F c : Forest Id} (h : forestFromRoot C bad root cb = .ok (F, c)) :
    ∃ c', forestFromRoot C src root cg = .ok (F, c') ∧ CacheTrue C R c ∧ CacheOk C R c' := by
  obtain ⟨F', c', h1, _⟩ := holds_forest hS ho hd hcg
  obtain ⟨rfl, h2, h3⟩ := appendTree_same hl hN hS ho _ _ _ _ _ _ _ _ _ _ _ _ hcb hcg h h1
  exact ⟨c', h1, h2, h3⟩

theorem dumpFrom_same (hl : Local C.decTree) (hN : NoForgery C R bad) (hS : Sound C R) (ho : Opens R src)
    {env env' : CacheEnv Id} (he : C33.EnvOk env') (comps : List Comp) :
    ∀ (shown : Path) (id : Id) (cb cg : Forest Id) (d : Dir Bytes), Holds C R id d → CacheTrue C R cb → CacheOk C R cg →
      (dumpFrom C bad env comps shown id cb).1 <+: (dumpFrom C src env' comps shown id cg).1 ∧
      ((dumpFrom C bad env comps shown id cb).2 = .ok () →
        dumpFrom C src env' comps shown id cg = dumpFrom C bad env comps shown id cb) := by
  induction comps with
  | nil => intro shown id cb cg d _ _ _; simp [dumpFrom]
  | cons a rest ih =>
    intro shown id cb cg d hd hcb hcg
    cases a with
    | cur => exact ih shown id cb cg d hd hcb hcg
    | other => simp [dumpFrom]
    | normal n =>
      obtain ⟨t, ht, hdt⟩ := hd
      obtain ⟨cg1, g1, hcg1, _⟩ := treeRead_complete hS ho hcg ht
      simp only [dumpFrom, g1]
      cases hb : treeRead C bad cb id with
      | error e => simp
      | ok r =>
        obtain ⟨t', cb1⟩ := r
        obtain ⟨hcb1, hg⟩ := treeRead_genuine hl hN hcb hb
        have : t' = t := hcb1.right id t' t hg ht
        subst this
        dsimp only
        rcases child_rel hdt n with ⟨h2, _⟩ | ⟨⟨c, md⟩, ⟨⟨md', l⟩, sub⟩, h2, _, h4, h5⟩
        · simp [h2]
        · simp only [h2]
          cases c with
          | dir s =>
            obtain ⟨u, h6, h7⟩ := h5 s md rfl
            dsimp only
            by_cases hr : rest.isEmpty
            · simp only [hr, if_true]
              obtain ⟨cg2, g2, _⟩ := treeRead_complete hS ho hcg1 h6
              simp only [g2]
              cases hb2 : treeRead C bad cb1 s with
              | error e => simp
              | ok r =>
                obtain ⟨u', cb2⟩ := r
                obtain ⟨hcb2, hg2⟩ := treeRead_genuine hl hN hcb1 hb2
                rw [hcb2.right s u' u hg2 h6]
                simp
            · simp only [hr]
              exact ih _ s cb1 cg1 sub ⟨u, h6, h7⟩ hcb1 hcg1
          | link tgt =>
            dsimp only
            obtain ⟨i1, i2⟩ := ih (shown ++ [n]) id cb1 cg1 d ⟨t', ht, hdt⟩ hcb1 hcg1
            refine ⟨List.prefix_cons_inj _ |>.mpr i1, fun h => ?_⟩
            rw [i2 h]
          | file cs =>
            dsimp only
            by_cases hr : rest.isEmpty
            · simp only [hr, if_true]
              cases l with
              | none => exact h4.elim
              | some l =>
                cases l with
                | link _ => exact h4.elim
                | other => exact h4.elim
                | file x =>
                  obtain ⟨parts, s', h6, h7, _⟩ := file_reads hS ho h4.2 env' he _ C33.settled_new
                  simp only [h6, h7]
                  cases hb2 : readBlobs C.hash bad env ReaderState.new cs with
                  | error e => simp
                  | ok r =>
                    obtain ⟨parts', s2⟩ := r
                    dsimp only
                    rw [reads_genuine hN h4.2 fromPacks_new hb2]
                    simp
            · simp [hr]

/-- Two disks alike in everything but the state of the reader of chunks. -/
def Alike (C : Codec Id) (R : Repo Id) (bad : Source Id) (db dg : Disk Id) : Prop :=
  db.fs = dg.fs ∧ db.tick = dg.tick ∧ db.elsewhere = dg.elsewhere ∧ FromPacks C bad db.reader ∧ Stored C R dg.reader

theorem fillFile_same (hN : NoForgery C R bad) (hS : Sound C R) (ho : Opens R src) {cenv cenv' : CacheEnv Id} {p : Path}
    (cs : List Id) : ∀ {db dg db' dg' : Disk Id}, Alike C R bad db dg →
      fillFile C.hash bad cenv p cs db = (db', none) → fillFile C.hash src cenv' p cs dg = (dg', none) →
      Alike C R bad db' dg' := by
  induction cs with
  | nil =>
    intro db dg db' dg' ha h h'
    simp only [fillFile, Prod.mk.injEq, and_true] at h h'
    subst h h'
    exact ha
  | cons c cs ih =>
    intro db dg db' dg' ha h h'
    obtain ⟨a1, a2, a3, a4, a5⟩ := ha
    unfold fillFile at h h'
    split at h
    · simp at h
    rename_i x r1 hr1
    split at h'
    · simp at h'
    rename_i y r2 hr2
    obtain ⟨⟨b1, b2⟩, b3⟩ := read_fromPacks a4 hr1
    obtain ⟨b4, b5⟩ := read_stored hS ho a5 hr2
    have : x = y := hN x _ b2 b4 b1
    subst this
    rw [← a1] at h'
    split at h
    · rename_i z m tm hz
      rw [hz] at h'
      refine ih ?_ h h'
      exact ⟨by simp only, a2, a3, b3, b5⟩
    · simp at h

theorem call_same (hN : NoForgery C R bad) (hS : Sound C R) (ho : Opens R src) {cenv cenv' : CacheEnv Id} {env : FsEnv}
    (op : SysOp Id) {db dg db' dg' : Disk Id} (ha : Alike C R bad db dg)
    (h : call C.hash bad cenv env op db = (db', none)) (h' : call C.hash src cenv' env op dg = (dg', none)) :
    Alike C R bad db' dg' := by
  obtain ⟨fs, tick, rb, el⟩ := db
  obtain ⟨fs', tick', rg, el'⟩ := dg
  obtain ⟨a1, a2, a3, a4, a5⟩ := ha
  dsimp only at a1 a2 a3 a4 a5
  subst a1 a2 a3
  unfold call at h h'
  by_cases hv : op.refused = true
  · simp [hv] at h
  rw [if_neg hv] at h h'
  dsimp only at h h'
  cases hw : fs.way op.path with
  | through =>
    simp only [hw, Prod.mk.injEq, and_true] at h h'
    subst h h'
    exact ⟨rfl, rfl, rfl, a4, a5⟩
  | missing => simp [hw] at h
  | here =>
    rw [hw] at h h'
    unfold callHere at h h'
    obtain ⟨p, hp⟩ : ∃ p, p = op.path := ⟨_, rfl⟩
    rw [← hp] at h h'
    dsimp only at h h'
    cases hf : fs p with
    | none =>
      rw [hf] at h h'
      cases op <;> dsimp only at h h' <;> first
        | (refine fillFile_same hN hS ho _ ?_ h h'; exact ⟨rfl, rfl, rfl, a4, a5⟩)
        | (simp at h; done)
        | (rw [Prod.mk.injEq] at h h'
           rw [← h.1, ← h'.1]
           exact ⟨rfl, rfl, rfl, a4, a5⟩)
    | some o =>
      obtain ⟨it, m, tm⟩ := o
      rw [hf] at h h'
      cases op <;> cases it <;> dsimp only at h h' <;> first
        | (refine fillFile_same hN hS ho _ ?_ h h'; exact ⟨rfl, rfl, rfl, a4, a5⟩)
        | (simp at h; done)
        | (rw [Prod.mk.injEq] at h h'
           rw [← h.1, ← h'.1]
           exact ⟨rfl, rfl, rfl, a4, a5⟩)

theorem calls_same (hN : NoForgery C R bad) (hS : Sound C R) (ho : Opens R src) {cenv cenv' : CacheEnv Id} {env : FsEnv}
    (ops : List (SysOp Id)) : ∀ {db dg db' dg' : Disk Id}, Alike C R bad db dg →
      calls C.hash bad cenv env ops db = (db', none) → calls C.hash src cenv' env ops dg = (dg', none) →
      Alike C R bad db' dg' := by
  induction ops with
  | nil =>
    intro db dg db' dg' ha h h'
    simp only [calls, Prod.mk.injEq, and_true] at h h'
    subst h h'
    exact ha
  | cons op ops ih =>
    intro db dg db' dg' ha h h'
    unfold calls at h h'
    split at h
    · simp at h
    rename_i d1 h1
    split at h'
    · simp at h'
    rename_i d2 h2
    exact ih (call_same hN hS ho op ha h1 h2) h h'

/-! ## Repacking -/

section Repack

variable {env env' : CacheEnv Id} {filter : Path → Bool}

theorem repackChunks_same (hN : NoForgery C R bad) (hS : Sound C R) (ho : Opens R src) (cs : List Id) :
    ∀ {s : Sends Id} {rb rg : ReaderState Id} {ob og : Repacking Id}, FromPacks C bad rb → Stored C R rg →
      repackChunks C bad env cs (s, rb) = .ok ob → repackChunks C src env' cs (s, rg) = .ok og →
      ob.1 = og.1 ∧ FromPacks C bad ob.2 ∧ Stored C R og.2 := by
  induction cs with
  | nil => intro s rb rg ob og hb hg h h'; cases h; cases h'; exact ⟨rfl, hb, hg⟩
  | cons c cs ih =>
    intro s rb rg ob og hb hg h h'
    unfold repackChunks at h h'
    split at h
    · rename_i hc
      rw [if_pos hc] at h'
      split at h
      · cases h
      split at h'
      · cases h'
      exact ih hb hg h h'
    · rename_i hc
      rw [if_neg hc] at h'
      split at h
      · cases h
      rename_i x r1 h1
      split at h'
      · cases h'
      rename_i y r2 h2
      obtain ⟨⟨b1, b2⟩, b3⟩ := read_fromPacks hb h1
      obtain ⟨b4, b5⟩ := read_stored hS ho hg h2
      have : x = y := hN x _ b2 b4 b1
      subst this
      exact ih b3 b5 h h'

theorem repackTree_same (hN : NoForgery C R bad) (hS : Sound C R) (ho : Opens R src) (F : Forest Id) (k : Nat) :
    ∀ {path : Path} {id : Id} {s : Sends Id} {rb rg : ReaderState Id} {ob og : Id × Repacking Id},
      FromPacks C bad rb → Stored C R rg →
      repackTree C bad env filter F k path id (s, rb) = .ok ob →
      repackTree C src env' filter F k path id (s, rg) = .ok og →
      ob.1 = og.1 ∧ ob.2.1 = og.2.1 ∧ FromPacks C bad ob.2.2 ∧ Stored C R og.2.2 := by
  induction k with
  | zero => intro path id s rb rg ob og _ _ h; cases h
  | succ k ih =>
    intro path id s rb rg ob og hb hg h h'
    have node : ∀ {p : Path} {x : Node Id} {s : Sends Id} {rb rg : ReaderState Id} {ob og : Node Id × Repacking Id},
        FromPacks C bad rb → Stored C R rg →
        repackNode C bad env (repackTree C bad env filter F k) p x (s, rb) = .ok ob →
        repackNode C src env' (repackTree C src env' filter F k) p x (s, rg) = .ok og →
        ob.1 = og.1 ∧ ob.2.1 = og.2.1 ∧ FromPacks C bad ob.2.2 ∧ Stored C R og.2.2 := by
      intro p x s rb rg ob og hb hg h h'
      unfold repackNode at h h'
      cases hx : x.contents with
      | link tg => rw [hx] at h h'; cases h; cases h'; exact ⟨rfl, rfl, hb, hg⟩
      | file cs =>
        rw [hx] at h h'
        dsimp only at h h'
        cases h1 : repackChunks C bad env cs (s, rb) with
        | error e => rw [h1] at h; cases h
        | ok st =>
          cases h2 : repackChunks C src env' cs (s, rg) with
          | error e => rw [h2] at h'; cases h'
          | ok st' =>
            rw [h1] at h; rw [h2] at h'; cases h; cases h'
            obtain ⟨a, b, c⟩ := repackChunks_same hN hS ho cs hb hg h1 h2
            exact ⟨rfl, a, b, c⟩
      | dir sub =>
        rw [hx] at h h'
        dsimp only at h h'
        cases h1 : repackTree C bad env filter F k p sub (s, rb) with
        | error e => rw [h1] at h; cases h
        | ok st =>
          cases h2 : repackTree C src env' filter F k p sub (s, rg) with
          | error e => rw [h2] at h'; cases h'
          | ok st' =>
            rw [h1] at h; rw [h2] at h'; cases h; cases h'
            obtain ⟨a, b, c, d⟩ := ih hb hg h1 h2
            exact ⟨by simp only [a], b, c, d⟩
    have loop : ∀ (l : Tree Id) {acc : Tree Id} {s : Sends Id} {rb rg : ReaderState Id} {ob og : Tree Id × Repacking Id},
        FromPacks C bad rb → Stored C R rg →
        repackNodes C bad env filter (repackTree C bad env filter F k) path l acc (s, rb) = .ok ob →
        repackNodes C src env' filter (repackTree C src env' filter F k) path l acc (s, rg) = .ok og →
        ob.1 = og.1 ∧ ob.2.1 = og.2.1 ∧ FromPacks C bad ob.2.2 ∧ Stored C R og.2.2 := by
      intro l
      induction l with
      | nil => intro acc s rb rg ob og hb hg h h'; cases h; cases h'; exact ⟨rfl, rfl, hb, hg⟩
      | cons e l ihl =>
        intro acc s rb rg ob og hb hg h h'
        obtain ⟨n, x⟩ := e
        unfold repackNodes at h h'
        split at h
        · rename_i hf
          rw [if_pos hf] at h'
          exact ihl hb hg h h'
        · rename_i hf
          rw [if_neg hf] at h'
          split at h
          · cases h
          rename_i y st h1
          split at h'
          · cases h'
          rename_i y' st' h2
          obtain ⟨a, b, c, d⟩ := node hb hg h1 h2
          obtain ⟨s1, r1⟩ := st
          obtain ⟨s2, r2⟩ := st'
          dsimp only at a b c d
          subst a b
          split at h
          · cases h
          · rename_i hi
            rw [if_neg hi] at h'
            exact ihl c d h h'
    unfold repackTree at h h'
    split at h
    · cases h
    rename_i t ht
    rw [ht] at h'
    dsimp only at h'
    split at h
    · cases h
    rename_i t1 s1 r1 h1
    split at h'
    · cases h'
    rename_i t2 s2 r2 h2
    obtain ⟨a, b, c, d⟩ := loop t hb hg h1 h2
    dsimp only at a b c d
    subst a b
    cases h; cases h'
    exact ⟨rfl, rfl, c, d⟩

theorem loadForests_same (hl : Local C.decTree) (hN : NoForgery C R bad) (hS : Sound C R) (ho : Opens R src)
    (snaps : List (Snap Id)) (hd : ∀ sn ∈ snaps, Readable C R sn.1) : ∀ {cb cg : Forest Id} {l : List (Snap Id × Forest Id)},
    CacheTrue C R cb → CacheOk C R cg → loadForests C bad cb snaps = .ok l → loadForests C src cg snaps = .ok l := by
  induction snaps with
  | nil => intro cb cg l _ _ h; cases h; rfl
  | cons sn rest ih =>
    intro cb cg l hcb hcg h
    obtain ⟨d, hd0⟩ := hd sn (by simp)
    unfold loadForests at h ⊢
    split at h
    · cases h
    rename_i F c h1
    obtain ⟨c', h2, h3, h4⟩ := forest_same hl hN hS ho hd0 hcb hcg h1
    rw [h2]
    dsimp only
    split at h
    · cases h
    rename_i l' h5
    cases h
    rw [ih (fun sn h => hd sn (List.mem_cons_of_mem _ h)) h3 h4 h5]

theorem walkSnapshots_same (hN : NoForgery C R bad) (hS : Sound C R) (ho : Opens R src) (sfs : List (Snap Id × Forest Id)) :
    ∀ {s : Sends Id} {rb rg : ReaderState Id} {ob og : List (Snapshot Id) × Repacking Id},
      FromPacks C bad rb → Stored C R rg →
      walkSnapshots C bad env filter sfs (s, rb) = .ok ob → walkSnapshots C src env' filter sfs (s, rg) = .ok og →
      ob.1 = og.1 ∧ ob.2.1 = og.2.1 := by
  induction sfs with
  | nil => intro s rb rg ob og _ _ h h'; cases h; cases h'; exact ⟨rfl, rfl⟩
  | cons e rest ih =>
    intro s rb rg ob og hb hg h h'
    obtain ⟨sn, F⟩ := e
    unfold walkSnapshots at h h'
    split at h
    · cases h
    rename_i root st h1
    split at h'
    · cases h'
    rename_i root' st' h2
    obtain ⟨a, b, c, d⟩ := repackTree_same hN hS ho F _ hb hg h1 h2
    obtain ⟨s1, r1⟩ := st
    obtain ⟨s2, r2⟩ := st'
    dsimp only at a b c d
    subst a b
    split at h
    · cases h
    rename_i l st1 h3
    split at h'
    · cases h'
    rename_i l' st1' h4
    cases h; cases h'
    obtain ⟨a', b'⟩ := ih c d h3 h4
    exact ⟨by rw [show l = l' from a'], b'⟩

theorem copyPlan_same (hl : Local C.decTree) (hN : NoForgery C R bad) (hS : Sound C R) (ho : Opens R src)
    {w : World Id} {dst : Source Id} {snaps : List (Snap Id)} (hd : ∀ sn ∈ snaps, Readable C R sn.1) {dry : Bool}
    {P P' : Plan Id} (h : copyPlan C env w bad dst snaps filter dry = .ok P)
    (h' : copyPlan C env' w src dst snaps filter dry = .ok P') : P = P' := by
  unfold copyPlan at h h'
  split at h
  · cases h
  rename_i sfs h1
  rw [loadForests_same hl hN hS ho snaps hd (newTreeCache_true hS) newTreeCache_ok h1] at h'
  dsimp only at h'
  split at h
  · cases h
  rename_i known hk
  rw [hk] at h'
  dsimp only at h'
  split at h
  · cases h
  rename_i start here hr
  rw [hr] at h'
  dsimp only at h h'
  split at h
  · cases h
  rename_i news s r h2
  split at h'
  · cases h'
  rename_i news' s' r' h3
  obtain ⟨a, b⟩ := walkSnapshots_same hN hS ho sfs fromPacks_new stored_new h2 h3
  dsimp only at a b
  subst a b
  cases h; cases h'
  rfl

theorem prunePlan_same (hl : Local C.decTree) (hN : NoForgery C R bad) (hS : Sound C R) (ho : Opens R src)
    (hi : bad.index = src.index) {w : World Id} {snaps : List (Snap Id)} (hd : ∀ sn ∈ snaps, Readable C R sn.1)
    {dry : Bool} {P P' : Option (Plan Id)} (h : prunePlan C env w bad snaps dry = .ok P)
    (h' : prunePlan C env' w src snaps dry = .ok P') : P = P' := by
  unfold prunePlan at h h'
  rw [hi] at h
  split at h
  · cases h
  rename_i sfs h1
  rw [loadForests_same hl hN hS ho snaps hd (newTreeCache_true hS) newTreeCache_ok h1] at h'
  dsimp only at h h'
  split at h
  · rename_i he
    rw [if_pos he] at h'
    cases h; cases h'
    rfl
  rename_i he
  rw [if_neg he] at h'
  split at h
  · cases h
  rename_i known hk
  rw [hk] at h'
  dsimp only at h'
  split at h
  · cases h
  rename_i start here hr
  rw [hr] at h'
  dsimp only at h h'
  split at h
  · cases h
  rename_i news s r h2
  split at h'
  · cases h'
  rename_i news' s' r' h3
  obtain ⟨_, b⟩ := walkSnapshots_same hN hS ho sfs fromPacks_new stored_new h2 h3
  dsimp only at b
  subst b
  cases h; cases h'
  rfl

end Repack

end Backpak.Genuine

import Verif.Lemmas.Reading
import Verif.Model.Moving
import Verif.Model.Backup
import Verif.Model.FilterSnapshot
import Verif.Model.Copy
import Verif.Model.Sizes
import Verif.Model.Prune
import Verif.Lemmas.DemoStore
import Verif.Props.C32
import Verif.Props.C43
import Verif.Props.C63
import Verif.Props.C84
import Verif.Props.C85

/-!
# C87: reading while others write

A command that reads a repository - `ls`, `dump`, `diff`, `restore`, `check` - loads the indexes one by one, the snapshots,
and the packs it needs. Meanwhile others may store and remove packs, indexes and snapshots. `R n` is the repository at its
`n`th read of a pack; `str p` is what the bytes named `p` decompress to.
-/

namespace Backpak.C87

open Spec Genuine

variable {Id : Type} [LinearOrder Id] {C : Codec Id} {ids : Ids Id} {R : Nat → Repo Id} {R₀ R₁ : Repo Id} {src : Source Id}
  {ix : Index Id} {bm : BMap Id Id} {str : Id → Stream} {s s' : Snapshot Id} {n : Nat}

omit [LinearOrder Id] in
theorem read_same [LinearOrder Id] {P : Id → Prop} (n : Nat) (p : Id) (x : Stream) (_ : P p)
    (h : readOf str (R n) p = .ok x) : (fun p => Except.ok (str p) : Id → Res Stream) p = .ok x := by
  unfold readOf at h
  split at h
  · exact h
  · cases h

/-! ## What succeeds is right -/

/-- Whatever indexes were loaded, and whichever packs come and go, what `ls` lists if it succeeds is what the snapshot
holds in any repository it can be read in. -/
theorem ls_right (hl : Local C.decTree) (hN : NoForgery C R₀ ⟨ix, bm, fun p => .ok (str p)⟩) (hS : Sound C R₀)
    (ho : Opens R₀ src) (hs : Readable C R₀ s) {T : Reading Id (Res (List (Line Id)))}
    (hT : Does (Named bm) Failed (fun f => ls C ⟨ix, bm, f⟩ s) T) {l : List (Line Id)}
    (h : T.runOver (fun n => readOf str (R n)) n = .ok l) : ls C src s = .ok l := by
  refine C85.ls_same hl hN hS ho hs ?_
  rw [← h, Reading.runOver_good hT.careful (g := fun p => .ok (str p)) read_same n (by rw [h]; rintro ⟨e, he⟩; cases he),
    hT.same]

/-- The same for `diff`. -/
theorem diff_right (hl : Local C.decTree) (hN : NoForgery C R₀ ⟨ix, bm, fun p => .ok (str p)⟩) (hS : Sound C R₀)
    (ho : Opens R₀ src) (hs : Readable C R₀ s) (hs' : Readable C R₀ s') {md : Bool}
    {T : Reading Id (Res (List (DiffLine Id)))}
    (hT : Does (Named bm) Failed (fun f => diffSnapshots C ⟨ix, bm, f⟩ md s s') T) {l : List (DiffLine Id)}
    (h : T.runOver (fun n => readOf str (R n)) n = .ok l) : diffSnapshots C src md s s' = .ok l := by
  refine C85.diff_same hl hN hS ho hs hs' ?_
  rw [← h, Reading.runOver_good hT.careful (g := fun p => .ok (str p)) read_same n (by rw [h]; rintro ⟨e, he⟩; cases he),
    hT.same]

/-- The same for `dump`. -/
theorem dump_right (hl : Local C.decTree) (hN : NoForgery C R₀ ⟨ix, bm, fun p => .ok (str p)⟩) (hS : Sound C R₀)
    (ho : Opens R₀ src) {env env' : CacheEnv Id} (he : C33.EnvOk env') (hs : Readable C R₀ s) {path : List Comp}
    {T : Reading Id (List (Dumped Id) × Res Unit)} (hT : Does (Named bm) DumpFailed (fun f => dump C ⟨ix, bm, f⟩ env s path) T)
    {l : List (Dumped Id)} (h : T.runOver (fun n => readOf str (R n)) n = (l, .ok ())) :
    dump C src env' s path = (l, .ok ()) := by
  have hg := Reading.runOver_good hT.careful (g := fun p => .ok (str p)) read_same n
    (by rw [h]; rintro ⟨e, he⟩; cases he)
  rw [hT.same, h] at hg
  rw [(C85.dump_same hl hN hS ho he hs path).2 (by rw [← hg]), ← hg]

/-- The same for `snapshots --stat`. -/
theorem stat_right (hl : Local C.decTree) (hN : NoForgery C R₀ ⟨ix, bm, fun p => .ok (str p)⟩) (hS : Sound C R₀)
    (ho : Opens R₀ src) {g : Graphemes} {md reverse : Bool} {wanted : Id → Bool} {snaps : List (Snap Id)}
    (hs : ∀ s ∈ snaps, Readable C R₀ s.1) {T : Reading Id (Res (List (Shown Id)))}
    (hT : Does (Named bm) Failed (fun f => showStat g C ⟨ix, bm, f⟩ md reverse wanted snaps) T) {out : List (Shown Id)}
    (h : T.runOver (fun n => readOf str (R n)) n = .ok out) : showStat g C src md reverse wanted snaps = .ok out := by
  refine C85.stat_same hl hN hS ho hs ?_
  rw [← h, Reading.runOver_good hT.careful (g := fun p => .ok (str p)) read_same n (by rw [h]; rintro ⟨e, he⟩; cases he),
    hT.same]

/-- The same for `snapshots --sizes`, of a repository with the indexes that were loaded. -/
theorem sizes_right (hl : Local C.decTree) (hN : NoForgery C R₀ ⟨ix, bm, fun p => .ok (str p)⟩) (hS : Sound C R₀)
    (ho : Opens R₀ src) (hi : src.index = ix) {g : Graphemes} {stat files md reverse : Bool} {wanted : Id → Bool}
    {snaps : List (Snap Id)} (hs : ∀ s ∈ snaps, Readable C R₀ s.1) {T : Reading Id (Res (List (Shown Id)))}
    (hT : Does (Named bm) Failed (fun f => showSizes g C ⟨ix, bm, f⟩ stat files md reverse wanted snaps) T)
    {out : List (Shown Id)} (h : T.runOver (fun n => readOf str (R n)) n = .ok out) :
    showSizes g C src stat files md reverse wanted snaps = .ok out := by
  refine C85.sizes_same hl hN hS ho hi.symm hs ?_
  rw [← h, Reading.runOver_good hT.careful (g := fun p => .ok (str p)) read_same n (by rw [h]; rintro ⟨e, he⟩; cases he),
    hT.same]

/-- The same for `usage`. -/
theorem usage_right (hl : Local C.decTree) (hN : NoForgery C R₀ ⟨ix, bm, fun p => .ok (str p)⟩) (hS : Sound C R₀)
    (ho : Opens R₀ src) (hi : src.index = ix) {snaps : List (Snapshot Id)} (hs : ∀ s ∈ snaps, Readable C R₀ s)
    {T : Reading Id (Res Usage)} (hT : Does (Named bm) Failed (fun f => usage C ⟨ix, bm, f⟩ snaps) T) {u : Usage}
    (h : T.runOver (fun n => readOf str (R n)) n = .ok u) : usage C src snaps = .ok u := by
  refine C85.usage_same hl hN hS ho hi.symm hs ?_
  rw [← h, Reading.runOver_good hT.careful (g := fun p => .ok (str p)) read_same n (by rw [h]; rintro ⟨e, he⟩; cases he),
    hT.same]

/-- The same for `restore`, with `--delete`: whatever packs come and go while it plans and while it writes, if it succeeds
there is at and below every destination what the snapshot holds, and nothing else. -/
theorem restore_right {cut : Bytes → Nat} {look : Look} {dangling : Path → Bool} {args : RestoreArgs} {d2 : Dir Bytes}
    {cenv cenv' : CacheEnv Id} {env : FsEnv} (hl : Local C.decTree) (hN : NoForgery C R₀ ⟨ix, bm, fun p => .ok (str p)⟩)
    (hS : Sound C R₀) (ho : Opens R₀ src) (hc : C33.EnvOk cenv) {d d' : Disk Id} (hr : d.reader = ReaderState.new)
    (h : RestoreOk C R₀ cut look dangling args s d2 d.fs) (hw : args.dryRun = false) (hd : args.delete = true)
    {T : Reading Id (Res (Restored Id))}
    (hT : Does (Named bm) Failed (fun f => restore C ⟨ix, bm, f⟩ cut look dangling args s) T)
    {ops : List (SysOp Id)} {lines : List (DiffLine Id)}
    (h1 : T.runOver (fun n => readOf str (R n)) n = .ok (ops, lines)) {n' : Nat} {T' : Reading Id (Outcome Id)}
    (hT' : Does (Named bm) CallFailed (fun f => calls C.hash ⟨ix, bm, f⟩ cenv' env ops d) T')
    (h2 : T'.runOver (fun n => readOf str (R n)) n' = (d', none)) :
    d'.elsewhere = d.elsewhere ∧ ∀ p ∈ s.paths, ∀ q,
      (d'.fs (dest args s p ++ q)).map Obj.item = (entry d2 (lastName p :: q)).map (fun e => itemOf e.2) := by
  have g1 := Reading.runOver_good hT.careful (g := fun p => .ok (str p)) read_same n
    (by rw [h1]; rintro ⟨e, he⟩; cases he)
  rw [hT.same, h1] at g1
  have g2 := Reading.runOver_good hT'.careful (g := fun p => .ok (str p)) read_same n'
    (by rw [h2]; rintro ⟨e, he⟩; cases he)
  rw [hT'.same, h2] at g2
  exact C85.restores hl hN hS ho hc hr h hw hd g1.symm g2.symm

/-! ## Loading the indexes one by one -/

omit [LinearOrder Id] in
theorem keys_map [LinearOrder Id] {m : BMap Id (Index Id)} (h : BMap.Sorted m) {x : Index Id} :
    (BMap.keys m).map (fun i => (i, (BMap.get? m i).getD x)) = m := by
  unfold BMap.keys
  rw [List.map_map]
  conv_rhs => rw [← List.map_id m]
  refine List.map_congr_left fun e he => ?_
  simp only [Function.comp, BMap.get?_of_mem_nodup h.nodup (k := e.1) (v := e.2) he, Option.getD_some, id]

/-- `Same R₁ R i`: index `i` is still what it was in `R₁`, if it is still there when it is loaded. -/
def Same (R₁ : Repo Id) (at_ : Id → Repo Id) : Prop :=
  ∀ i x y, BMap.get? R₁.indexes i = some x → BMap.get? (at_ i).indexes i = some y → y = x

/-- If all loads succeed, the index is that of the repository at the moment of the listing. -/
theorem index_right {at_ : Id → Repo Id} (hx : BMap.Sorted R₁.indexes) (hsame : Same R₁ at_) {l : List Id}
    (hl : l.Perm (BMap.keys R₁.indexes)) (h : Index.buildMaster (loadsOver at_ l) = .ok ix) :
    ∃ files : List (Id × Index Id), files.Perm R₁.indexes ∧
      Index.buildMaster (files.map fun e => (e.1, .ok e.2)) = .ok ix := by
  refine ⟨l.map (fun i => (i, (BMap.get? R₁.indexes i).getD Index.empty)), ?_, ?_⟩
  · have := hl.map (fun i => (i, (BMap.get? R₁.indexes i).getD Index.empty))
    rwa [keys_map hx] at this
  · rw [← h, List.map_map]
    congr 1
    obtain ⟨files, hf⟩ : ∃ files : List (Id × Index Id), loadsOver at_ l = files.map (fun e => (e.1, .ok e.2)) := by
      unfold Index.buildMaster at h
      split at h
      · cases h
      · rename_i r hr
        obtain ⟨files, hf, _⟩ := Index.loadAll_sound _ [] _ _ Index.loadedOk_nil (by simp) hr
        exact ⟨files, hf⟩
    refine List.map_congr_left fun i hi => ?_
    obtain ⟨x, hx'⟩ := BMap.mem_keys_iff.mp (hl.mem_iff.mp hi)
    have hm : (i, match BMap.get? (at_ i).indexes i with
        | some x => Except.ok x
        | none => .error (.err "Couldn't open")) ∈ loadsOver at_ l := List.mem_map.mpr ⟨i, hi, rfl⟩
    cases hy : BMap.get? (at_ i).indexes i with
    | none =>
      rw [hf, List.mem_map] at hm
      obtain ⟨e, _, he⟩ := hm
      rw [hy] at he
      cases he
    | some y => rw [hsame i x y hx' hy]; simp only [Function.comp, hx', Option.getD_some]

/-- Loading succeeds exactly if no listed index is removed before it is loaded. -/
theorem index_loads_iff {at_ : Id → Repo Id} (hx : BMap.Sorted R₁.indexes) {l : List Id}
    (hl : l.Perm (BMap.keys R₁.indexes)) :
    (∃ ix, Index.buildMaster (loadsOver at_ l) = .ok ix) ↔ ∀ i ∈ l, i ∈ BMap.keys (at_ i).indexes := by
  constructor
  · rintro ⟨ix, h⟩ i hi
    unfold Index.buildMaster at h
    split at h
    · cases h
    rename_i r hr
    obtain ⟨files, hf, _⟩ := Index.loadAll_sound _ [] _ _ Index.loadedOk_nil (by simp) hr
    cases hy : BMap.get? (at_ i).indexes i with
    | some y => exact BMap.mem_keys_iff.mpr ⟨y, hy⟩
    | none =>
      have hm : (i, .error (.err "Couldn't open")) ∈ loadsOver at_ l :=
        List.mem_map.mpr ⟨i, hi, by rw [hy]⟩
      rw [hf, List.mem_map] at hm
      obtain ⟨e, _, he⟩ := hm
      cases he
  · intro h
    have hf : loadsOver at_ l = (l.map (fun i => (i, (BMap.get? (at_ i).indexes i).getD Index.empty))).map
        (fun e => (e.1, .ok e.2)) := by
      unfold loadsOver
      rw [List.map_map]
      refine List.map_congr_left fun i hi => ?_
      obtain ⟨y, hy⟩ := BMap.mem_keys_iff.mp (h i hi)
      simp only [Function.comp, hy, Option.getD_some]
    have hn : l.Nodup := hl.nodup_iff.mpr hx.nodup
    obtain ⟨r, hr, _⟩ := Index.loadAll_ok (l.map (fun i => (i, (BMap.get? (at_ i).indexes i).getD Index.empty))) [] _
      Index.loadedOk_nil (by rw [List.nil_append, List.map_map]; simpa [Function.comp_def] using hn)
    rw [← hf] at hr
    exact ⟨Index.merge r, by simp only [Index.buildMaster, hr]⟩

/-- What the command then has to work with, if all packs of that moment stay. -/
theorem opens_listed {at_ : Id → Repo Id} (hx : BMap.Sorted R₁.indexes) (hsame : Same R₁ at_) {l : List Id}
    (hl : l.Perm (BMap.keys R₁.indexes)) (h : Index.buildMaster (loadsOver at_ l) = .ok ix)
    (hb : Index.blobToPack ix = .ok bm) (hstr : ∀ p bs, (p, bs) ∈ R₁.packs → Pack.contentOf bs <+: (str p).data) :
    Opens R₁ ⟨ix, bm, readOf str R₁⟩ where
  master := index_right hx hsame hl h
  blobMap := hb
  read p bs hp := ⟨str p, if_pos (List.mem_map.mpr ⟨_, hp, rfl⟩), hstr p bs hp⟩
  absent p hp := ⟨"Couldn't open", if_neg hp⟩

/-! ## While others only add -/

/-- The packs of `R₁` are there at every read. -/
def Stay (R₁ : Repo Id) (R : Nat → Repo Id) : Prop := ∀ n p, p ∈ BMap.keys R₁.packs → p ∈ BMap.keys (R n).packs

/-- If all packs of `R₁` stay, a command that has loaded the indexes of `R₁` does what it would do on `R₁`. -/
theorem as_at_listing {A : Type} {Bad : A → Prop} {cmd : (Id → Res Stream) → A} {T : Reading Id A}
    (hT : Does (Named bm) Bad cmd T) (hS : Sound C R₁) (ho : Opens R₁ ⟨ix, bm, readOf str R₁⟩) (hR : Stay R₁ R) (n : Nat) :
    T.runOver (fun n => readOf str (R n)) n = cmd (readOf str R₁) := by
  rw [Reading.runOver_same hT.careful (g := readOf str R₁), hT.same]
  rintro n p ⟨b, hb⟩
  obtain ⟨bs, _, _, _, hp, _⟩ := lookup_sound hS ho (id := b) (p := p) hb
  have hk : p ∈ BMap.keys R₁.packs := List.mem_map.mpr ⟨_, hp, rfl⟩
  unfold readOf
  rw [if_pos (hR n p hk), if_pos hk]

/-- `ls` loads the snapshot first and then the indexes. If the snapshot could be read then, and from then on others only
add, it succeeds, and lists the paths in the snapshot. -/
theorem ls_succeeds (hH : Healthy C ids R₁) (ho : Opens R₁ ⟨ix, bm, readOf str R₁⟩) (h0 : AddedTo R₀ R₁)
    (hR : Stay R₁ R) {d : Dir Bytes} (hd : Holds C R₀ s.tree d) {T : Reading Id (Res (List (Line Id)))}
    (hT : Does (Named bm) Failed (fun f => ls C ⟨ix, bm, f⟩ s) T) :
    ∃ l, T.runOver (fun n => readOf str (R n)) n = .ok l ∧
      ∀ p, (∃ x, (p, x) ∈ l) ↔ ∃ e, entry d p = some e := by
  rw [as_at_listing hT hH.sound ho hR]
  obtain ⟨F, cache, h1, hF⟩ := load hH.sound ho (has_mono_holds (fun _ => h0.has) hd)
  obtain ⟨L, h2, h3⟩ := walkTree_ok hF.sorted (F.length + 1) [] s.tree hF.tall
  refine ⟨L, by simp only [ls, h1, h2], fun p => ⟨?_, ?_⟩⟩
  · rintro ⟨x, hx⟩
    obtain ⟨q, hp, hq⟩ := (h3.mem p x).mp hx
    rw [List.nil_append] at hp
    subst hp
    rcases hF.entry_rel p with ⟨h4, _⟩ | ⟨y, e, h4, h5, h6⟩
    · rw [hq] at h4; cases h4
    · exact ⟨e, h5⟩
  · rintro ⟨e, he⟩
    rcases hF.entry_rel p with ⟨_, h4⟩ | ⟨x, e', h4, h5, h6⟩
    · rw [he] at h4; cases h4
    · exact ⟨x, (h3.mem p x).mpr ⟨p, rfl, h4⟩⟩

/-- So does `dump`. -/
theorem dump_succeeds (hH : Healthy C ids R₁) (ho : Opens R₁ ⟨ix, bm, readOf str R₁⟩) (h0 : AddedTo R₀ R₁)
    (hR : Stay R₁ R) {d : Dir Bytes} (hd : Holds C R₀ s.tree d) {env : CacheEnv Id} (he : C33.EnvOk env) {p : Path}
    (hp : p ≠ []) (hl : C44.NoLinks d p) {T : Reading Id (List (Dumped Id) × Res Unit)}
    (hT : Does (Named bm) DumpFailed (fun f => dump C ⟨ix, bm, f⟩ env s (p.map .normal)) T) :
    C44.Right C R₁ d p (T.runOver (fun n => readOf str (R n)) n) p := by
  rw [as_at_listing hT hH.sound ho hR]
  exact C44.prints_partial hH ho he (has_mono_holds (fun _ => h0.has) hd) p hp hl _ (.inl rfl)

/-- `snapshots --stat` too loads the snapshots first. If they could be read then, and from then on others only add, it
shows each wanted one with how it differs from the one before, as they were when the snapshots were loaded. -/
theorem stat_succeeds (hH : Healthy C ids R₁) (ho : Opens R₁ ⟨ix, bm, readOf str R₁⟩) (h0 : AddedTo R₀ R₁)
    (hR : Stay R₁ R) {snaps : List (Snap Id)} (hs : ∀ s ∈ snaps, C63.Held C R₀ s.1) {g : Graphemes} {md reverse : Bool}
    {wanted : Id → Bool} {T : Reading Id (Res (List (Shown Id)))}
    (hT : Does (Named bm) Failed (fun f => showStat g C ⟨ix, bm, f⟩ md reverse wanted snaps) T) :
    ∃ out, T.runOver (fun n => readOf str (R n)) n = .ok out ∧ out.map (·.snap) = C63.Chosen wanted reverse snaps ∧
      ∀ o ∈ out, ∃ i, C63.Right C R₁ ⟨ix, bm, readOf str R₁⟩ md snaps i o := by
  rw [as_at_listing hT hH.sound ho hR]
  exact C63.stat hH ho (fun s hm => by
    obtain ⟨d, h1, h2⟩ := hs s hm
    exact ⟨d, has_mono_holds (fun _ => h0.has) h1, h2⟩) wanted reverse

/-- `restore` loads the indexes first. For a snapshot that could be read then, and if from then on others only add, a
restore with `--delete` succeeds and reproduces the snapshot. -/
theorem restore_succeeds_partial {cut : Bytes → Nat} {look : Look} {dangling : Path → Bool} {args : RestoreArgs}
    {d2 : Dir Bytes} {cenv : CacheEnv Id} {env : FsEnv} (hS : Sound C R₁) (ho : Opens R₁ ⟨ix, bm, readOf str R₁⟩)
    (hR : Stay R₁ R) (hc : C33.EnvOk cenv) {d : Disk Id} (hr : d.reader = ReaderState.new)
    (h : RestoreOk C R₁ cut look dangling args s d2 d.fs) (hw : args.dryRun = false) (hd : args.delete = true)
    {T : Reading Id (Res (Restored Id))}
    (hT : Does (Named bm) Failed (fun f => restore C ⟨ix, bm, f⟩ cut look dangling args s) T)
    {T' : List (SysOp Id) → Reading Id (Outcome Id)}
    (hT' : ∀ ops, Does (Named bm) CallFailed (fun f => calls C.hash ⟨ix, bm, f⟩ cenv env ops d) (T' ops)) (n' : Nat) :
    ∃ ops lines d', T.runOver (fun n => readOf str (R n)) n = .ok (ops, lines) ∧
      (T' ops).runOver (fun n => readOf str (R n)) n' = (d', none) ∧ d'.elsewhere = d.elsewhere ∧
      ∀ p ∈ s.paths, ∀ q,
        (d'.fs (dest args s p ++ q)).map Obj.item = (entry d2 (lastName p :: q)).map (fun e => itemOf e.2) := by
  obtain ⟨ops, lines, d', h1, h2, h3, h4⟩ := C39.reproduces (env := env) hc hS ho hr h hw hd
  refine ⟨ops, lines, d', ?_, ?_, h3, h4⟩
  · rw [as_at_listing hT hS ho hR]; exact h1
  · rw [as_at_listing (hT' ops) hS ho hR]; exact h2

/-! ## A snapshot stored after the indexes were loaded -/

/-- Nothing that the loaded indexes list has the ID of the root of the snapshot. -/
def Late (C : Codec Id) (bm : BMap Id Id) (s : Snapshot Id) : Prop := s.tree ∉ BMap.keys bm ∧ s.tree ≠ C.emptyId

/-- The root of a snapshot that no listed blob has the ID of. -/
theorem late_of_absent (hS : Sound C R₁) (ho : Opens R₁ src) (h : ∀ b, Has C R₁ b → b.id ≠ s.tree)
    (he : s.tree ≠ C.emptyId) : Late C src.blobMap s := by
  refine ⟨fun hk => ?_, he⟩
  obtain ⟨p, hp⟩ := BMap.mem_keys_iff.mp hk
  obtain ⟨b, hb, hid⟩ := lookup_found hS ho hp
  exact h b hb hid

/-- What a tree cache can hold: what it held, and what the indexes list. -/
theorem appendTree_cache (hb : Index.blobToPack src.index = .ok src.blobMap) (n : Nat) (stack : List Id) (id : Id)
    (x y : Forest Id × Forest Id) (h : appendTree C src n stack id x = .ok y) :
    (id ∈ BMap.keys x.2 ∨ id ∈ BMap.keys src.blobMap) ∧
      ∀ k ∈ BMap.keys y.2, k ∈ BMap.keys x.2 ∨ k ∈ BMap.keys src.blobMap := by
  induction n generalizing stack id x y with
  | zero => simp [appendTree] at h
  | succ n ih =>
    obtain ⟨forest, cache⟩ := x
    unfold appendTree at h
    split at h
    · cases h
    split at h
    · cases h
    rename_i t cache' ht
    obtain ⟨h1, h2⟩ := C23.treeRead_keys hb ht
    refine ⟨h1, ?_⟩
    have loop : ∀ (l : Tree Id) (x y : Forest Id × Forest Id),
        forSubtrees (appendTree C src n (id :: stack)) l x = .ok y →
        ∀ k ∈ BMap.keys y.2, k ∈ BMap.keys x.2 ∨ k ∈ BMap.keys src.blobMap := by
      intro l
      induction l with
      | nil => intro x y h; cases h; exact fun k hk => .inl hk
      | cons e l ihl =>
        intro x y h
        obtain ⟨nm, c, md⟩ := e
        cases c with
        | file cs => exact ihl x y h
        | link tg => exact ihl x y h
        | dir sub =>
          simp only [forSubtrees] at h
          split at h
          · cases h
          rename_i z hz
          intro k hk
          rcases ihl z y h k hk with hk | hk
          · exact (ih _ _ _ _ hz).2 k hk
          · exact .inr hk
    intro k hk
    rcases loop t _ y h k hk with hk | hk
    · exact h2 k hk
    · exact .inr hk

/-- A cache that holds no more than the empty tree and what the indexes list. -/
def Within (C : Codec Id) (bm : BMap Id Id) (cache : Forest Id) : Prop :=
  ∀ k ∈ BMap.keys cache, k = C.emptyId ∨ k ∈ BMap.keys bm

omit [LinearOrder Id] in
theorem within_new : Within C bm (newTreeCache C) := by
  intro k hk
  simp [newTreeCache, BMap.keys] at hk
  exact .inl hk

theorem forest_late {f : Id → Res Stream} (hb : Index.blobToPack ix = .ok bm) (hs : Late C bm s) {cache : Forest Id}
    (hc : Within C bm cache) : Failed (forestFromRoot C ⟨ix, bm, f⟩ s.tree cache) := by
  cases h : forestFromRoot C ⟨ix, bm, f⟩ s.tree cache with
  | error e => exact ⟨e, rfl⟩
  | ok y =>
    rcases (appendTree_cache (src := ⟨ix, bm, f⟩) hb _ _ _ _ _ h).1 with h1 | h1
    · rcases hc _ h1 with h1 | h1
      · exact absurd h1 hs.2
      · exact absurd h1 hs.1
    · exact absurd h1 hs.1

theorem forest_within {f : Id → Res Stream} (hb : Index.blobToPack ix = .ok bm) {root : Id} {cache : Forest Id}
    (hc : Within C bm cache) {y : Forest Id × Forest Id} (h : forestFromRoot C ⟨ix, bm, f⟩ root cache = .ok y) :
    Within C bm y.2 := by
  intro k hk
  rcases (appendTree_cache (src := ⟨ix, bm, f⟩) hb _ _ _ _ _ h).2 k hk with h1 | h1
  · exact hc _ h1
  · exact .inr h1

section Late

variable {f : Id → Res Stream}

theorem loadForests_late (hb : Index.blobToPack ix = .ok bm) (hs : Late C bm s) {i : Id} (l : List (Snap Id))
    (hl : (s, i) ∈ l) : ∀ {cache : Forest Id}, Within C bm cache → Failed (loadForests C ⟨ix, bm, f⟩ cache l) := by
  induction l with
  | nil => cases hl
  | cons e l ih =>
    intro cache hc
    simp only [loadForests]
    cases h : forestFromRoot C ⟨ix, bm, f⟩ e.1.tree cache with
    | error e => exact failed_error
    | ok y =>
      rcases List.mem_cons.mp hl with rfl | hl
      · obtain ⟨e, he⟩ := forest_late (f := f) hb hs hc
        rw [he] at h; cases h
      · obtain ⟨e, he⟩ := ih hl (forest_within hb hc h)
        dsimp only
        rw [he]
        exact failed_error

theorem usageLoop_late (hb : Index.blobToPack ix = .ok bm) (hs : Late C bm s) {sm : BMap Id Nat} (l : List (Snapshot Id))
    (hl : s ∈ l) : ∀ {cache : Forest Id} {v : BSet Id} {z : Sizes}, Within C bm cache →
      Failed (usageLoop C ⟨ix, bm, f⟩ sm l cache v z) := by
  induction l with
  | nil => cases hl
  | cons e l ih =>
    intro cache v z hc
    simp only [usageLoop]
    cases h : forestFromRoot C ⟨ix, bm, f⟩ e.tree cache with
    | error e => exact failed_error
    | ok y =>
      dsimp only
      rcases List.mem_cons.mp hl with rfl | hl
      · obtain ⟨e, he⟩ := forest_late (f := f) hb hs hc
        rw [he] at h; cases h
      · split
        · exact failed_error
        · exact ih hl (forest_within hb hc h)

/-- A command that has loaded the indexes and then reads a snapshot stored later fails, though nothing is wrong with the
repository: restoring it, comparing it, filtering it, and every backup that takes it for its parent. -/
theorem late_fails (hb : Index.blobToPack ix = .ok bm) (hs : Late C bm s) :
    Failed (ls C ⟨ix, bm, f⟩ s) ∧
    (∀ cut look dangling args, Failed (restore C ⟨ix, bm, f⟩ cut look dangling args s)) ∧
    (∀ md s', Failed (diffSnapshots C ⟨ix, bm, f⟩ md s s') ∧ Failed (diffSnapshots C ⟨ix, bm, f⟩ md s' s)) ∧
    (∀ i filter a, Failed (filterPlan C ⟨ix, bm, f⟩ (s, i) filter a)) ∧
    ∀ cut w snaps a, parentSnapshot a.paths snaps = some s → Failed (backupPlan C cut w ⟨ix, bm, f⟩ snaps a) := by
  obtain ⟨e, he⟩ := forest_late (f := f) hb hs within_new
  refine ⟨?_, fun cut look dangling args => ?_, fun md s' => ⟨?_, ?_⟩, fun i filter a => ?_, fun cut w snaps a hp => ?_⟩
  · simp only [ls, he]; exact failed_error
  · simp only [restore, he]; exact failed_error
  · simp only [diffSnapshots, he]; exact failed_error
  · unfold diffSnapshots
    cases h : forestFromRoot C ⟨ix, bm, f⟩ s'.tree (newTreeCache C) with
    | error e => exact failed_error
    | ok y =>
      obtain ⟨e', he'⟩ := forest_late (f := f) hb hs (forest_within hb within_new h)
      dsimp only
      rw [he']
      exact failed_error
  · simp only [filterPlan, he]; exact failed_error
  · simp only [backupPlan, parentForest, hp, he]; exact failed_error

/-- The same if the packs come and go. -/
theorem late_fails_over {A : Type} {cmd : (Id → Res Stream) → Res A} {T : Reading Id (Res A)}
    (hT : Does (Named bm) Failed cmd T) (h : ∀ f, Failed (cmd f)) (n : Nat) :
    Failed (T.runOver (fun n => readOf str (R n)) n) := by
  by_contra hn
  rw [Reading.runOver_good hT.careful (g := fun p => .ok (str p)) read_same n hn, hT.same] at hn
  exact hn (h _)

/-- Commands that go through all snapshots fail as soon as there is one: `usage`, and `copy` and `prune` of them. -/
theorem late_stops (hb : Index.blobToPack ix = .ok bm) (hs : Late C bm s) :
    (∀ sm l v z, s ∈ l → Failed (usageLoop C ⟨ix, bm, f⟩ sm l (newTreeCache C) v z)) ∧
    (∀ i env w dst snaps filter dry, (s, i) ∈ snaps → Failed (copyPlan C env w ⟨ix, bm, f⟩ dst snaps filter dry)) ∧
    ∀ i env w snaps dry, (s, i) ∈ snaps → Failed (prunePlan C env w ⟨ix, bm, f⟩ snaps dry) := by
  refine ⟨fun sm l v z hl => usageLoop_late hb hs l hl within_new, fun i env w dst snaps filter dry hl => ?_,
    fun i env w snaps dry hl => ?_⟩
  · obtain ⟨e, he⟩ := loadForests_late (f := f) hb hs snaps hl within_new
    unfold copyPlan
    rw [he]
    exact failed_error
  · obtain ⟨e, he⟩ := loadForests_late (f := f) hb hs snaps hl within_new
    unfold prunePlan
    rw [he]
    exact failed_error

end Late

/-! ## check -/

section CheckOver

open Check

variable {Z : Zstd} {H : Bytes → ObjectId} {O : Serde.OldTime} {S S₁ S₂ S₃ : Stored}

/-- On a repository that stays as it is this is `check`. -/
theorem checkOver_still (readPacks : Bool) : checkOver Z H O readPacks S S S = check Z H O readPacks S := rfl

theorem chunksOf_late {ix : Index ObjectId} {bm : BMap ObjectId ObjectId} {f : ObjectId → Res Stream}
    (hb : Index.blobToPack ix = .ok bm) {s : Snapshot ObjectId} (hs : Late (Codec.real H) bm s) {i : ObjectId} {x : Bytes}
    (hx : loadSnapshot H O i x = .ok s) (l : List (ObjectId × Bytes)) (hl : (i, x) ∈ l) :
    ∀ {cache : Forest ObjectId}, Within (Codec.real H) bm cache → Failed (chunksOf H O ⟨ix, bm, f⟩ l cache) := by
  induction l with
  | nil => cases hl
  | cons e l ih =>
    intro cache hc
    obtain ⟨j, y⟩ := e
    simp only [chunksOf]
    cases h : loadSnapshot H O j y with
    | error e => exact failed_error
    | ok s' =>
      dsimp only
      cases h' : forestFromRoot (Codec.real H) ⟨ix, bm, f⟩ s'.tree cache with
      | error e => exact failed_error
      | ok z =>
        rcases List.mem_cons.mp hl with hj | hl
        · cases hj
          rw [hx] at h
          cases h
          obtain ⟨e, he⟩ := forest_late (f := f) hb hs hc
          rw [he] at h'; cases h'
        · obtain ⟨e, he⟩ := ih hl (forest_within hb hc h')
          dsimp only
          rw [he]
          exact failed_error

/-- If a snapshot is stored between the moment the indexes are loaded and the moment the snapshots are listed, and its
root is not in the indexes that were loaded, `check` fails. -/
theorem check_late_fails {ix : Index ObjectId} (h1 : openIndex Z H S₁ = .ok ix) {i : ObjectId} {x : Bytes}
    (hi : (i, x) ∈ S₃.snapshots) {s : Snapshot ObjectId} (hx : loadSnapshot H O i x = .ok s)
    (hs : ∀ p m, (p, m) ∈ ix.packs → ∀ e ∈ m, e.id ≠ s.tree) (he : s.tree ≠ (Codec.real H).emptyId) (readPacks : Bool) :
    Failed (checkOver Z H O readPacks S₁ S₂ S₃) := by
  unfold checkOver
  rw [h1]
  dsimp only
  cases hb : Index.blobToPack ix with
  | error e => exact failed_error
  | ok bm =>
    have hl : Late (Codec.real H) bm s := by
      refine ⟨fun hk => ?_, he⟩
      obtain ⟨p, hp⟩ := BMap.mem_keys_iff.mp hk
      obtain ⟨m, e, h3, h4, h5⟩ := (C18.lookup_iff _ _ hb _ _).mp hp
      exact hs p m h3 e h4 h5
    obtain ⟨e, he⟩ := chunksOf_late (f := openPack Z S₃) hb hl hx S₃.snapshots hi within_new
    dsimp only
    rw [he]
    exact failed_error

end CheckOver

/-! ## A backup that finishes meanwhile -/

section Example

open Pipeline

theorem snapB_late : ∃ e ∈ C84.repoB.snapshots, e ∉ C83.repo0.snapshots ∧ Post.putSnap e.2 ∈ C84.planB.posts ∧
    e.2.tree ∉ BMap.keys (Check.opened C83.repo0).blobMap ∧ e.2.tree ≠ Demo.codec.emptyId ∧
    parentSnapshot C84.args.paths (Demo.snapsOf C84.repoB) = some e.2 := by decide +kernel

/-- The indexes of a repository in good order are loaded. Then a backup finishes, and leaves the repository in good order.
Restoring its snapshot with the indexes loaded before fails, and so does another backup of the same paths. -/
theorem finished_backup_in_the_way : Healthy Demo.codec C27.fullIds C83.repo0 ∧ Opens C83.repo0 (Check.opened C83.repo0) ∧
    Finished (liveCfg C27.fullIds 4 C84.planB.start) (Demo.clean C83.repo0) C84.planB.main C84.planB.posts
      (Demo.clean C84.repoB) ∧
    Healthy Demo.codec C27.fullIds C84.repoB ∧ AddedTo C83.repo0 C84.repoB ∧
    ∃ e ∈ C84.repoB.snapshots, Post.putSnap e.2 ∈ C84.planB.posts ∧ Readable Demo.codec C84.repoB e.2 ∧
      (∀ cut look dangling args,
        Failed (restore Demo.codec (Check.opened C83.repo0) cut look dangling args e.2)) ∧
      (∀ cut w, Failed (backupPlan Demo.codec cut w (Check.opened C83.repo0) (Demo.snapsOf C84.repoB) C84.args)) ∧
      ∃ l, ls Demo.codec (Check.opened C84.repoB) e.2 = .ok l := by
  have ho := Check.opened_opens C83.healthy0
  refine ⟨C83.healthy0, ho, ?_, C84.healthyB, C84.grown, ?_⟩
  · have := C27.ends C84.canB
    unfold C84.repoB
    exact this
  · obtain ⟨e, h1, _, h2, h3, h4, h5⟩ := snapB_late
    obtain ⟨_, g2, _, _, g5⟩ := late_fails (f := (Check.opened C83.repo0).read) ho.blobMap (s := e.2) ⟨h3, h4⟩
    obtain ⟨l, _, hl, _⟩ := C43.lists C84.healthyB (Check.opened_opens C84.healthyB) (i := e.1) h1
    exact ⟨e, h1, h2, C84.healthyB.readable _ _ h1, g2, fun cut w => g5 cut w _ _ h5, l, hl⟩

/-- The packs of the demonstration, as they decompress. -/
def strB (p : ObjectId) : Stream := ⟨Pack.contentOf ((BMap.get? C84.repoB.packs p).getD []), false⟩

theorem opens0 : Opens C83.repo0 ⟨(Check.opened C83.repo0).index, (Check.opened C83.repo0).blobMap, readOf strB C83.repo0⟩ where
  master := (Check.opened_opens C83.healthy0).master
  blobMap := (Check.opened_opens C83.healthy0).blobMap
  read p bs hp := ⟨strB p, if_pos (List.mem_map.mpr ⟨_, hp, rfl⟩), by
    have := BMap.get?_of_mem_nodup C84.healthyB.packs_sorted.nodup (C84.more.1 _ hp)
    unfold strB
    rw [this]
    exact List.prefix_rfl⟩
  absent p hp := ⟨"Couldn't open", if_neg hp⟩

theorem stay0 : Stay C83.repo0 (fun n => if n = 0 then C83.repo0 else C84.repoB) := by
  intro n p hp
  dsimp only
  split
  · exact hp
  · obtain ⟨e, he, rfl⟩ := List.mem_map.mp hp
    exact List.mem_map.mpr ⟨e, C84.more.1 e he, rfl⟩

theorem noForgery0 : NoForgery Demo.codec C83.repo0
    ⟨(Check.opened C83.repo0).index, (Check.opened C83.repo0).blobMap, fun p => .ok (strB p)⟩ := by
  have h : (∀ e ∈ C84.repoB.packs, Demo.piecesOk (Demo.targetsOf C83.repo0) (Pack.contentOf e.2) = true) ∧
      Demo.piecesOk (Demo.targetsOf C83.repo0) [] = true := by decide +kernel
  refine Demo.noForgery fun p s hs => ?_
  cases hs
  unfold strB
  cases hp : BMap.get? C84.repoB.packs p with
  | none => exact h.2
  | some bs => exact h.1 _ (BMap.mem_of_get? hp)

/-- A snapshot that was there before is listed, whether or not the backup has finished, with the indexes loaded before;
and it is listed as it would have been then. -/
example : ∃ e ∈ C83.repo0.snapshots, ∃ T l,
    Does (Named (Check.opened C83.repo0).blobMap) Failed
      (fun f => ls Demo.codec ⟨(Check.opened C83.repo0).index, (Check.opened C83.repo0).blobMap, f⟩ e.2) T ∧
    T.runOver (fun n => readOf strB (if n = 0 then C83.repo0 else C84.repoB)) 0 = .ok l ∧ l ≠ [] ∧
    ls Demo.codec (Check.opened C83.repo0) e.2 = .ok l := by
  have hne : ∃ e ∈ C83.repo0.snapshots, (ls Demo.codec (Check.opened C83.repo0) e.2).toOption.map List.length ≠ some 0 := by decide +kernel
  obtain ⟨e, he, hne⟩ := hne
  obtain ⟨T, hT⟩ := ls_reads (C := Demo.codec) (ix := (Check.opened C83.repo0).index)
    (bm := (Check.opened C83.repo0).blobMap) e.2
  obtain ⟨l', d, h1, hd, h3, _⟩ := C43.lists C83.healthy0 (Check.opened_opens C83.healthy0) (i := e.1) he
  obtain ⟨l, hl, hp⟩ := ls_succeeds (n := 0) C83.healthy0 opens0 (.refl _) stay0 hd hT
  refine ⟨e, he, T, l, hT, hl, ?_, ls_right C85.demo_local noForgery0 C83.healthy0.sound
    (Check.opened_opens C83.healthy0) ⟨d, hd⟩ hT hl⟩
  rintro rfl
  rw [h1] at hne
  cases l' with
  | nil => exact hne rfl
  | cons x l' =>
    obtain ⟨e', h5, _⟩ := h3 x.1 x.2 List.mem_cons_self
    obtain ⟨_, h6⟩ := (hp x.1).mpr ⟨e', h5⟩
    cases h6

theorem held0 : ∀ s ∈ Demo.snapsOf C83.repo0, C63.Held Demo.codec C83.repo0 s.1 := by
  have hs : (Demo.snapsOf C83.repo0).map Prod.fst = [Demo.snapOf C83.treeAB 1] := by decide +kernel
  intro s h
  have h1 : s.1 ∈ (Demo.snapsOf C83.repo0).map Prod.fst := List.mem_map.mpr ⟨s, h, rfl⟩
  rw [hs] at h1
  rw [List.mem_singleton.mp h1]
  have hA : FileHolds Demo.codec C83.repo0 [Demo.chunkA.id] Demo.chunkA.data := by
    have := FileHolds.cons (C := Demo.codec) (R := C83.repo0) (x := Demo.chunkA.data) (c := Demo.chunkA.id)
      (Check.has_iff.mpr (by decide +kernel)) .nil
    simpa using this
  have hB : FileHolds Demo.codec C83.repo0 [Demo.chunkB.id] Demo.chunkB.data := by
    have := FileHolds.cons (C := Demo.codec) (R := C83.repo0) (x := Demo.chunkB.data) (c := Demo.chunkB.id)
      (Check.has_iff.mpr (by decide +kernel)) .nil
    simpa using this
  exact ⟨_, ⟨Demo.oneFile [97] Demo.chunkA ++ Demo.oneFile [98] Demo.chunkB,
    ⟨Check.okTree_sound (by decide +kernel), by decide +kernel, .inr (Check.has_iff.mpr (by decide +kernel))⟩,
    .file hA (.file hB .nil)⟩, by simp only [Dir.KindsOk]; decide +kernel⟩

/-- The same for `snapshots --stat`, of all snapshots there were. -/
example : ∃ T out, Does (Named (Check.opened C83.repo0).blobMap) Failed
      (fun f => showStat C63.bytewise Demo.codec ⟨(Check.opened C83.repo0).index, (Check.opened C83.repo0).blobMap, f⟩
        false false (fun _ => true) (Demo.snapsOf C83.repo0)) T ∧
    T.runOver (fun n => readOf strB (if n = 0 then C83.repo0 else C84.repoB)) 0 = .ok out ∧
    out.map (·.snap) = Demo.snapsOf C83.repo0 ∧
    showStat C63.bytewise Demo.codec (Check.opened C83.repo0) false false (fun _ => true) (Demo.snapsOf C83.repo0) =
      .ok out := by
  obtain ⟨T, hT⟩ := showStat_reads (C := Demo.codec) (ix := (Check.opened C83.repo0).index)
    (bm := (Check.opened C83.repo0).blobMap) C63.bytewise false false (fun _ => true) (Demo.snapsOf C83.repo0)
  obtain ⟨out, h1, h2, _⟩ := stat_succeeds (n := 0) C83.healthy0 opens0 (.refl _) stay0 held0 hT
  refine ⟨T, out, hT, h1, by simpa [C63.Chosen] using h2, stat_right C85.demo_local noForgery0 C83.healthy0.sound
    (Check.opened_opens C83.healthy0) (fun s hs => ?_) hT h1⟩
  obtain ⟨d, hd, _⟩ := held0 s hs
  exact ⟨d, hd⟩

end Example

/-! ## The same for check, on files -/

/-- One snapshot, and then another beside it with packs and an index of its own. -/
def files1 : Repo ObjectId := Demo.repoOf Demo.realIds [[Demo.chunkA], [Demo.treeA]] [Demo.snapA]

def files2 : Repo ObjectId :=
  let more := Demo.repoOf Demo.realIds [[Demo.chunkB], [Demo.treeB]] [Demo.snapB]
  ⟨BMap.ofList (files1.packs ++ more.packs), BMap.ofList (files1.indexes ++ more.indexes),
    BMap.ofList (files1.snapshots ++ more.snapshots)⟩

theorem healthy1 : Healthy Demo.codec Demo.realIds files1 := Check.healthy_sound (k := 2) (by decide +kernel)

theorem healthy2 : Healthy Demo.codec Demo.realIds files2 := Check.healthy_sound (k := 2) (by decide +kernel)

theorem fits1 : Demo.fits files1 = true := by decide +kernel

theorem fits2 : Demo.fits files2 = true := by decide +kernel

/-- The index as loaded before, and the second snapshot as loaded after. -/
theorem late12 : ∃ ix, Check.openIndex Toy.zstd Demo.hash (Demo.store files1) = .ok ix ∧
    ∃ e ∈ (Demo.store files2).snapshots, ∃ s, Check.loadSnapshot Demo.hash (fun _ => none) e.1 e.2 = .ok s ∧
      (∀ q ∈ ix.packs, ∀ x ∈ q.2, x.id ≠ s.tree) ∧ s.tree ≠ (Codec.real Demo.hash).emptyId := by
  have h : (match Check.openIndex Toy.zstd Demo.hash (Demo.store files1) with
      | .error _ => false
      | .ok ix => (Demo.store files2).snapshots.any fun e =>
        match Check.loadSnapshot Demo.hash (fun _ => none) e.1 e.2 with
        | .error _ => false
        | .ok s => decide ((∀ q ∈ ix.packs, ∀ x ∈ q.2, x.id ≠ s.tree) ∧ s.tree ≠ (Codec.real Demo.hash).emptyId)) = true := by
    decide +kernel
  split at h
  · cases h
  rename_i ix hix
  obtain ⟨e, he, h⟩ := List.any_eq_true.mp h
  split at h
  · cases h
  rename_i s hs
  exact ⟨ix, hix, e, he, s, hs, of_decide_eq_true h⟩

/-- `check` succeeds before the second snapshot is stored and after, and fails if it is stored between the moment the
indexes are loaded and the moment the snapshots are listed. -/
theorem check_in_the_way : Healthy Demo.codec Demo.realIds files1 ∧ Healthy Demo.codec Demo.realIds files2 ∧
    (∀ r, Check.check Toy.zstd Demo.hash (fun _ => none) r (Demo.store files1) = .ok ()) ∧
    (∀ r, Check.check Toy.zstd Demo.hash (fun _ => none) r (Demo.store files2) = .ok ()) ∧
    ∀ r, Failed (Check.checkOver Toy.zstd Demo.hash (fun _ => none) r (Demo.store files1) (Demo.store files2)
      (Demo.store files2)) := by
  refine ⟨healthy1, healthy2, C32.complete (Demo.written_store fits1) healthy1,
    C32.complete (Demo.written_store fits2) healthy2, fun r => ?_⟩
  obtain ⟨ix, h1, e, h2, s, h3, h4, h5⟩ := late12
  exact check_late_fails h1 (i := e.1) (x := e.2) h2 h3 (fun p m hp x hx => h4 (p, m) hp x hx) h5 r

end Backpak.C87

import Verif.Lemmas.Run
import Verif.Lemmas.Pipeline

/-!
# The simplest run

For examples: each packer gathers all its blobs in one pack, and each thread does what it can as
soon as it can.
-/

namespace Backpak.Pipeline

open Spec

variable {Id : Type} [LinearOrder Id] {c : Cfg Id}

/-- What one packer makes of its blobs. -/
def withPack (ids : Ids Id) (bs : Pack Id) (e : Repo Id × Index Id) : Repo Id × Index Id :=
  if bs = [] then e
  else (putItem e.1 (.pack (ids.packId (Pack.manifestOf bs)) bs), addPack e.2 (ids.packId (Pack.manifestOf bs)) bs)

theorem run_more {c : Cfg Id} {P : State Id → Prop} {a b : State Id} (h : Relation.ReflTransGen (Step c) a b)
    (h' : ∃ s, Relation.ReflTransGen (Step c) b s ∧ P s) :
    ∃ s, Relation.ReflTransGen (Step c) a s ∧ P s := by
  obtain ⟨s, h1, h2⟩ := h'
  exact ⟨s, h.trans h1, h2⟩

theorem simple_start (hc : c.cores = 4) (hl : c.live = true) (R : Repo Id) (main : List (Op Id)) :
    ∃ wip, Relation.ReflTransGen (Step c) (init c ⟨R, ⟨none, [], []⟩⟩ main)
      ⟨⟨R, ⟨wip, [], []⟩⟩, main, false, false, 4, fun _ => .recv [], .recv c.start, .idle⟩ := by
  cases he : c.start.isEmpty with
  | true =>
    have hinit : init c ⟨R, ⟨none, [], []⟩⟩ main =
        ⟨⟨R, ⟨none, [], []⟩⟩, main, false, false, 0, fun _ => .recv [], .recv c.start, .idle⟩ := by
      unfold init
      rw [if_neg (by simp [he])]
    refine ⟨none, ?_⟩
    rw [hinit]
    refine .head (.spawn _ (by simp) (by simp [State.running, hc])) ?_
    refine .head (.spawn _ (by simp) (by simp [State.running, hc, PackerState.running])) ?_
    refine .head (.spawn _ (by simp) (by simp [State.running, hc, PackerState.running])) ?_
    refine .head (.spawn _ (by simp) (by simp [State.running, hc, PackerState.running, IndexerState.running])) ?_
    exact .refl
  | false =>
    have hinit : init c ⟨R, ⟨none, [], []⟩⟩ main =
        ⟨⟨R, ⟨none, [], []⟩⟩, main, false, false, 0, fun _ => .recv [], .persist c.start, .idle⟩ := by
      unfold init
      rw [if_pos ⟨hl, he⟩]
    refine ⟨some c.start, ?_⟩
    rw [hinit]
    refine .head (.spawn _ (by simp) (by simp [State.running, hc])) ?_
    refine .head (.spawn _ (by simp) (by simp [State.running, hc, PackerState.running])) ?_
    refine .head (.spawn _ (by simp) (by simp [State.running, hc, PackerState.running])) ?_
    refine .head (.spawn _ (by simp) (by simp [State.running, hc, PackerState.running, IndexerState.running])) ?_
    refine .head (.ixPersist _ c.start rfl (by simp)) ?_
    exact .refl

theorem simple_sends (w : World Id) (ix : IndexerState Id) : ∀ (ss : List (Blob Id)) (a b : Pack Id),
    Relation.ReflTransGen (Step c)
      ⟨w, ss.map Op.send, false, false, 4, fun k => .recv (match k with | .chunk => a | .tree => b), ix, .idle⟩
      ⟨w, [], false, false, 4, fun k => .recv (match k with
        | .chunk => a ++ ofKind .chunk ss | .tree => b ++ ofKind .tree ss), ix, .idle⟩ := by
  intro ss
  induction ss with
  | nil =>
    intro a b
    simp only [List.map_nil, ofKind, List.filter_nil, List.append_nil]
    exact .refl
  | cons x ss ih =>
    intro a b
    have hx : packerNo x.kind < 4 := by cases x.kind <;> decide
    refine .head (.mainSend _ x _ (ss.map Op.send) rfl hx rfl) ?_
    cases hk : x.kind with
    | chunk =>
      have := ih (a ++ [x]) b
      convert this using 2
      · funext k; cases k <;> simp [Function.update]
      · funext k; cases k <;> simp [ofKind, hk]
    | tree =>
      have := ih a (b ++ [x])
      convert this using 2
      · funext k; cases k <;> simp [Function.update]
      · funext k; cases k <;> simp [ofKind, hk]

theorem simple_pack (hl : c.live = true) (hal : ∀ b, c.allowed b) (R : Repo Id) (wip : Option (Index Id))
    {main : List (Op Id)} {closed : Bool} (k : Kind) (f : Kind → PackerState Id) (bs : Pack Id) (hf : f k = .recv bs) (x : Index Id)
    (hid : bs ≠ [] → c.ids.packId (Pack.manifestOf bs) ∉ BMap.keys x.packs) :
    ∃ wip', Relation.ReflTransGen (Step c)
      ⟨⟨R, ⟨wip, [], []⟩⟩, main, closed, false, 4, f, .recv x, .idle⟩
      ⟨⟨(withPack c.ids bs (R, x)).1, ⟨wip', [], []⟩⟩, main, closed, false, 4,
        Function.update f k (.recv []), .recv (withPack c.ids bs (R, x)).2, .idle⟩ := by
  unfold withPack
  by_cases hbs : bs = []
  · rw [if_pos hbs]
    refine ⟨wip, ?_⟩
    have : Function.update f k (.recv []) = f := by
      rw [← hbs, ← hf, Function.update_eq_self]
    rw [this]
  · rw [if_neg hbs]
    have hk : packerNo k < 4 := by cases k <;> decide
    refine ⟨some (addPack x (c.ids.packId (Pack.manifestOf bs)) bs), ?_⟩
    refine .head (.endPack _ k bs hk hf hbs (hal bs)) ?_
    refine .head (.packerUp _ k (c.ids.packId (Pack.manifestOf bs)) bs (by simp) (by simp) rfl) ?_
    refine .head (.packerIdx _ k (c.ids.packId (Pack.manifestOf bs)) bs x (by simp) (by simp) rfl (hid hbs)) ?_
    simp only [hl, if_true]
    refine .head (.ixPersist _ (addPack x (c.ids.packId (Pack.manifestOf bs)) bs) rfl (by simp)) ?_
    refine .head (.upMove _ (.pack (c.ids.packId (Pack.manifestOf bs)) bs) rfl hl) ?_
    simp only [Function.update_idem, dropItem, BMap.insert, BMap.erase, if_true, Relation.ReflTransGen.refl]

theorem simple_end (hl : c.live = true) (R : Repo Id) (wip : Option (Index Id))
    (f : Kind → PackerState Id) (hf : ∀ k, f k = .recv []) (x : Index Id) (hx : x.isEmpty = false) :
    ∃ s, Relation.ReflTransGen (Step c)
      ⟨⟨R, ⟨wip, [], []⟩⟩, [], true, false, 4, f, .recv x, .idle⟩ s ∧ s.joined = true ∧
      s.world = ⟨putItem R (.index (c.ids.indexId x) x), ⟨none, [], []⟩⟩ := by
  refine run_step (.packerExit _ .chunk [] (by simp [packerNo]) (hf _) rfl rfl) ?_
  refine run_step (.packerExit _ .tree [] (by simp [packerNo]) (by simp [hf]) rfl rfl) ?_
  refine run_step (.ixClosed _ x rfl (by simp) (by simp) (by simp) hx) ?_
  simp only [hl, if_true]
  refine run_step (.ixCopy _ x rfl) ?_
  refine run_step (.ixUp _ x rfl (by simp) rfl) ?_
  refine run_step (.upMove _ (.index (c.ids.indexId x) x) rfl hl) ?_
  refine run_step (.upExit _ rfl (by simp) rfl (by simp) (by simp) ⟨_, rfl⟩) ?_
  refine run_step (.join _ rfl rfl rfl (by simp) (by simp) ⟨_, rfl⟩ rfl) ?_
  refine ⟨_, .refl, rfl, ?_⟩
  simp [dropItem, BMap.insert, BMap.erase]

/-- A run that sends some blobs can end with one pack of each kind. -/
theorem simple_run (ids : Ids Id) (start : Index Id) (R : Repo Id) (ss : List (Blob Id))
    (h1 : ofKind .chunk ss ≠ [] → ids.packId (Pack.manifestOf (ofKind .chunk ss)) ∉ BMap.keys start.packs)
    (h2 : ofKind .tree ss ≠ [] → ids.packId (Pack.manifestOf (ofKind .tree ss)) ∉
      BMap.keys (withPack ids (ofKind .chunk ss) (R, start)).2.packs)
    (h3 : (withPack ids (ofKind .tree ss) (withPack ids (ofKind .chunk ss) (R, start))).2.isEmpty = false) :
    ∃ s, Reachable (liveCfg ids 4 start) ⟨R, ⟨none, [], []⟩⟩ (mainOf [] ss) s ∧ s.joined = true ∧
      s.world = ⟨putItem (withPack ids (ofKind .tree ss) (withPack ids (ofKind .chunk ss) (R, start))).1
        (.index (ids.indexId (withPack ids (ofKind .tree ss) (withPack ids (ofKind .chunk ss) (R, start))).2)
          (withPack ids (ofKind .tree ss) (withPack ids (ofKind .chunk ss) (R, start))).2), ⟨none, [], []⟩⟩ := by
  obtain ⟨wip, h4⟩ := simple_start (c := liveCfg ids 4 start) rfl rfl R (mainOf [] ss)
  refine run_more h4 ?_
  have h5 := simple_sends (c := liveCfg ids 4 start) ⟨R, ⟨wip, [], []⟩⟩ (.recv start) ss [] []
  refine run_more (b := ⟨⟨R, ⟨wip, [], []⟩⟩, [], false, false, 4, fun k => .recv (match k with
        | .chunk => ofKind .chunk ss | .tree => ofKind .tree ss), .recv start, .idle⟩) ?_ ?_
  · convert h5 using 2
    · simp [mainOf]
    · funext k; cases k <;> rfl
    · rfl
    · simp
  refine run_step (.close _ rfl rfl) ?_
  obtain ⟨wip1, h6⟩ := simple_pack (c := liveCfg ids 4 start) rfl (fun _ => trivial) R wip .chunk
    (fun k => .recv (match k with | .chunk => ofKind .chunk ss | .tree => ofKind .tree ss))
    (ofKind .chunk ss) rfl start h1
  refine run_more h6 ?_
  obtain ⟨wip2, h7⟩ := simple_pack (c := liveCfg ids 4 start) rfl (fun _ => trivial)
    (withPack ids (ofKind .chunk ss) (R, start)).1 wip1 .tree
    (Function.update (fun k => .recv (match k with | .chunk => ofKind .chunk ss | .tree => ofKind .tree ss))
      .chunk (.recv []))
    (ofKind .tree ss) rfl (withPack ids (ofKind .chunk ss) (R, start)).2 h2
  refine run_more h7 ?_
  exact simple_end (c := liveCfg ids 4 start) rfl _ _ _ (fun k => by cases k <;> simp [Function.update]) _ h3

/-- It can also end with a pack of the first chunk alone. -/
theorem split_run (ids : Ids Id) (start : Index Id) (R : Repo Id) (b : Blob Id) (hb : b.kind = .chunk) (ss : List (Blob Id))
    (h0 : ids.packId (Pack.manifestOf [b]) ∉ BMap.keys start.packs)
    (h1 : ofKind .chunk ss ≠ [] → ids.packId (Pack.manifestOf (ofKind .chunk ss)) ∉
      BMap.keys (withPack ids [b] (R, start)).2.packs)
    (h2 : ofKind .tree ss ≠ [] → ids.packId (Pack.manifestOf (ofKind .tree ss)) ∉
      BMap.keys (withPack ids (ofKind .chunk ss) (withPack ids [b] (R, start))).2.packs)
    (h3 : (withPack ids (ofKind .tree ss) (withPack ids (ofKind .chunk ss) (withPack ids [b] (R, start)))).2.isEmpty = false) :
    ∃ s, Reachable (liveCfg ids 4 start) ⟨R, ⟨none, [], []⟩⟩ (mainOf [] (b :: ss)) s ∧ s.joined = true ∧
      s.world = ⟨putItem (withPack ids (ofKind .tree ss) (withPack ids (ofKind .chunk ss) (withPack ids [b] (R, start)))).1
        (.index (ids.indexId (withPack ids (ofKind .tree ss) (withPack ids (ofKind .chunk ss) (withPack ids [b] (R, start)))).2)
          (withPack ids (ofKind .tree ss) (withPack ids (ofKind .chunk ss) (withPack ids [b] (R, start)))).2),
        ⟨none, [], []⟩⟩ := by
  obtain ⟨wip, h4⟩ := simple_start (c := liveCfg ids 4 start) rfl rfl R (mainOf [] (b :: ss))
  refine run_more h4 ?_
  refine run_step (.mainSend _ b [] (ss.map Op.send) (by simp [mainOf]) (by show packerNo b.kind < 4; rw [hb]; decide) rfl) ?_
  obtain ⟨wip0, h5⟩ := simple_pack (c := liveCfg ids 4 start) rfl (fun _ => trivial) R wip (main := ss.map Op.send)
    (closed := false) .chunk (Function.update (fun _ => .recv []) b.kind (.recv ([] ++ [b]))) [b]
    (by rw [hb]; simp) start (fun _ => h0)
  rw [show (liveCfg ids 4 start).ids = ids from rfl] at h5
  refine run_more h5 ?_
  clear h5
  generalize withPack ids [b] (R, start) = e at h1 h2 h3 ⊢
  obtain ⟨R1, x1⟩ := e
  refine run_more (b := ⟨⟨R1, ⟨wip0, [], []⟩⟩, [], false, false, 4, fun k => .recv (match k with
        | .chunk => ofKind .chunk ss | .tree => ofKind .tree ss), .recv x1, .idle⟩) ?_ ?_
  · have h := simple_sends (c := liveCfg ids 4 start) ⟨R1, ⟨wip0, [], []⟩⟩ (.recv x1) ss [] []
    convert h using 2
    · funext k; rw [hb]; cases k <;> simp [Function.update]
    · simp
  refine run_step (.close _ rfl rfl) ?_
  obtain ⟨wip1, h6⟩ := simple_pack (c := liveCfg ids 4 start) rfl (fun _ => trivial) R1 wip0 (main := []) (closed := true)
    .chunk (fun k => .recv (match k with | .chunk => ofKind .chunk ss | .tree => ofKind .tree ss))
    (ofKind .chunk ss) rfl x1 h1
  refine run_more h6 ?_
  obtain ⟨wip2, h7⟩ := simple_pack (c := liveCfg ids 4 start) rfl (fun _ => trivial)
    (withPack ids (ofKind .chunk ss) (R1, x1)).1 wip1 (main := []) (closed := true) .tree
    (Function.update (fun k => .recv (match k with | .chunk => ofKind .chunk ss | .tree => ofKind .tree ss))
      .chunk (.recv []))
    (ofKind .tree ss) rfl (withPack ids (ofKind .chunk ss) (R1, x1)).2 h2
  refine run_more h7 ?_
  exact simple_end (c := liveCfg ids 4 start) rfl _ _ _ (fun k => by cases k <;> simp [Function.update]) _ h3

end Backpak.Pipeline

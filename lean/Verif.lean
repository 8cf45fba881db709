import Verif.Props.C01
import Verif.Props.C02
import Verif.Props.C03
import Verif.Props.C04
import Verif.Props.C05
import Verif.Props.C06
import Verif.Props.C07
import Verif.Props.C08
import Verif.Props.C09
import Verif.Props.C10
import Verif.Props.C11
import Verif.Props.C12
import Verif.Props.C13
import Verif.Props.C14
import Verif.Props.C15
import Verif.Props.C17
import Verif.Props.C18
import Verif.Props.C16
import Verif.Spec.Codec
import Verif.Model.Walk
import Verif.Props.C23
import Verif.Props.C33
import Verif.Lemmas.Grow
import Verif.Spec.Demo
import Verif.Props.C19
import Verif.Props.C20
import Verif.Props.C21
import Verif.Props.C22
import Verif.Props.C36
import Verif.Props.C37
import Verif.Lemmas.Check
import Verif.Lemmas.CheckRun
import Verif.Lemmas.DemoPrune
import Verif.Props.C24
import Verif.Props.C26
import Verif.Props.C29
import Verif.Lemmas.SimpleRun
import Verif.Props.C25
import Verif.Props.C27
import Verif.Props.C28
import Verif.Props.C30
import Verif.Props.C31
import Verif.Props.C41
import Verif.Props.C38
import Verif.Props.C43
import Verif.Props.C44
import Verif.Props.C34
import Verif.Props.C35
import Verif.Props.C39
import Verif.Props.C40
import Verif.Props.C42
import Verif.Props.C50
import Verif.Props.C53
import Verif.Props.C54
import Verif.Props.C48
import Verif.Props.C49
import Verif.Props.C46
import Verif.Props.C45
import Verif.Props.C47
import Verif.Model.Check
import Verif.Spec.Intact
import Verif.Spec.Written
import Verif.Lemmas.Intact
import Verif.Lemmas.Written
import Verif.Lemmas.DemoStore
import Verif.Props.C32
import Verif.Model.B2
import Verif.Props.C51
import Verif.Props.C52
import Verif.Props.C55
import Verif.Spec.RoundTrip
import Verif.Lemmas.RoundTrip
import Verif.Props.C56
import Verif.Model.Pipes
import Verif.Spec.Program
import Verif.Lemmas.Pipes
import Verif.Props.C57
import Verif.Props.C58
import Verif.Props.C59
import Verif.Props.C60
import Verif.Model.Filtered
import Verif.Props.C61
import Verif.Model.Init
import Verif.Props.C62
import Verif.Model.Stat
import Verif.Lemmas.Stat
import Verif.Props.C63
import Verif.Model.Json
import Verif.Spec.Json
import Verif.Lemmas.Json
import Verif.Model.Cat
import Verif.Lemmas.Pretty
import Verif.Props.C64
import Verif.Model.Shared
import Verif.Model.Rebuilding
import Verif.Model.SharedCache
import Verif.Lemmas.Shared
import Verif.Lemmas.SharedRun
import Verif.Lemmas.Beside
import Verif.Lemmas.Rebuilding
import Verif.Lemmas.Stored
import Verif.Props.C65
import Verif.Props.C66
import Verif.Props.C67
import Verif.Props.C68
import Verif.Props.C69
import Verif.Props.C70
import Verif.Props.C71
import Verif.Props.C72
import Verif.Props.C73
import Verif.Props.C74
import Verif.Props.C75
import Verif.Props.C76
import Verif.Props.C77
import Verif.Props.C78
import Verif.Props.C79
import Verif.Props.C80
import Verif.Props.C81
import Verif.Props.C82
import Verif.Lemmas.Prunes
import Verif.Props.C83
import Verif.Spec.AddedTo
import Verif.Lemmas.PrunePieces
import Verif.Props.C84
import Verif.Spec.Genuine
import Verif.Lemmas.Genuine
import Verif.Lemmas.CheckForgery
import Verif.Props.C85
import Verif.Props.C86
import Verif.Props.C87
import Verif.Props.C88
import Verif.Props.C89
import Verif.Props.C90
import Verif.Props.C91
import Verif.Lemmas.RestoreTimes
import Verif.Lemmas.DemoLink
import Verif.Props.C92
import Verif.Model.Times
import Verif.Lemmas.DemoTimes
import Verif.Props.C93
import Verif.Model.Text
import Verif.Spec.Text
import Verif.Lemmas.Text
import Verif.Props.C94
import Verif.Model.DiffPaths
import Verif.Spec.Since
import Verif.Lemmas.Since
import Verif.Props.C95
import Verif.Spec.TreeId
import Verif.Lemmas.TreeId
import Verif.Props.C96
import Verif.Props.C97
import Verif.Spec.Store
import Verif.Model.Stores
import Verif.Props.C98
import Verif.Spec.Passes
import Verif.Lemmas.FilterDiff
import Verif.Props.C99
import Verif.Spec.FileType
import Verif.Props.C100
import Verif.Props.C101
import Verif.Props.C102
import Verif.Props.C103
import Verif.Props.C104
import Verif.Props.C105
import Verif.Props.C106
import Verif.Props.C107
import Verif.Props.C108
import Verif.Props.C109

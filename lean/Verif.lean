import Verif.Core.Props
import Verif.Emd.Props
import Verif.Emd.VariantProps
import Verif.Bow.Props
import Verif.Index.Props
import Verif.WordSet.Props
import Verif.Index.MeanProps
import Verif.Trie.MapProps
import Verif.Trie.SortProps
import Verif.Trie.ScanProps
import Verif.Trie.LevProps
import Verif.Trie.LongestProps
import Verif.Edit.Props
import Verif.Index.V3Props
import Verif.Index.V5bProps
import Verif.Edit.EedProps
import Verif.Auto.Props
import Verif.Dawg.Props
import Verif.Tok.Props
import Verif.Regex.Props
import Verif.Regex.Witness
import Verif.Fp.Props
import Verif.WordSet.OpsProps
import Verif.Cy.Props
import Verif.File.Props
import Verif.Fp.IndexProps
import Verif.Fp.SetProps
import Verif.Fp.BowProps
import Verif.Dawg.OrigProps
import Verif.Sizeof.Props
import Verif.Fp.VarProps
import Verif.Trie.KeysProps
import Verif.Trie.BytesProps
import Verif.Regex.KeysProps
import Verif.Fp.Sum
import Verif.Fp.SumProps
import Verif.Conc.Model
import Verif.Conc.Spec
import Verif.Conc.Reader
import Verif.Conc.Find
import Verif.Conc.Writer
import Verif.Conc.System
import Verif.Conc.Props
import Verif.Conc.Races
import Verif.WordSet.Marks
import Verif.WordSet.MarksProps
import Verif.Fp.Range
import Verif.Fp.RangeEmd
import Verif.Fp.RangeSim
import Verif.Fp.RangeIndex
import Verif.Fp.RangeLookup
import Verif.Fp.RangeSet
import Verif.Fp.RangeBow
import Verif.Fp.RangeProps
import Verif.Core.Edits
import Verif.Core.Mirror
import Verif.Core.EditProps
import Verif.WordSet.EditProps
import Verif.Index.EditProps
import Verif.Bow.EditProps
import Verif.Fp.EditProps
import Verif.Fp.RenameProps
import Verif.WordSet.SymProps
import Verif.Fp.SetSymProps
import Verif.Index.SymProps
import Verif.Index.RevProps
import Verif.Fp.IndexSymProps
import Verif.Trie.WordsProps
import Verif.Regex.WordsProps
import Verif.Conc.Remover
import Verif.Conc.WriteSpec
import Verif.Conc.WriteSystem
import Verif.Conc.WriteProps
import Verif.Conc.WriteFind
import Verif.Conc.WriteFindProps
import Verif.Conc.WriteQuiet
import Verif.Conc.WriteQuietProps
import Verif.Conc.ListModel
import Verif.Conc.ListSpec
import Verif.Conc.ListPosted
import Verif.Conc.ListInv
import Verif.Conc.ListSystem
import Verif.Conc.ListRun
import Verif.Conc.ListProps
import Verif.Conc.ListLost
import Verif.Conc.ListAlarm
import Verif.Conc.ListFindModel
import Verif.Conc.ListFindSpec
import Verif.Conc.ListGrow
import Verif.Conc.ListPartial
import Verif.Conc.ListPasses
import Verif.Conc.ListChoice
import Verif.Conc.ListFind
import Verif.Conc.ListFindProps
import Verif.Conc.ListAlone
import Verif.Memo.Model
import Verif.Memo.Spec
import Verif.Memo.Lemmas
import Verif.Memo.Bridge
import Verif.Memo.Props
import Verif.Memo.Lru
import Verif.Memo.LruProps
import Verif.Memo.Spoiled
import Verif.Memo.Floats
import Verif.Index.RankProps
import Verif.WordSet.IncrProps
import Verif.Index.IncrProps
import Verif.Core.OverlapProps
import Verif.WordSet.BlockProps
import Verif.Index.BlockProps
import Verif.WordSet.MergeProps
import Verif.Index.MergeProps
import Verif.Emd.InvarProps
import Verif.Trie.AgreeProps
import Verif.Fp.SetIncrProps
import Verif.Index.V5bRankProps
import Verif.Index.V3RankProps
import Verif.Fp.V5bProps
import Verif.Fp.V5bErrorProps
import Verif.Fp.ScanProps
import Verif.Fp.V3Props
import Verif.Auto.MatcherProps
import Verif.Fp.BlockProps
import Verif.WordSet.ReprProps
import Verif.Index.V5bFindProps
import Verif.Index.V5bSymProps
import Verif.Index.V5bRevProps
import Verif.Tok.ClassModel
import Verif.Tok.ClassProps
import Verif.Dawg.CloneModel
import Verif.Dawg.CloneProps
import Verif.Edit.SymProps
import Verif.Index.ArgProps
import Verif.Edit.BKProps
import Verif.Fp.V5bFindProps
import Verif.Memo.FloatSizes
import Verif.Fp.V5bSymProps
import Verif.Edit.EedSymProps
import Verif.Auto.InterModel
import Verif.Auto.InterProps
import Verif.Fp.RangeVar
import Verif.Fp.RangeVarProps
import Verif.Trie.LevDepProps
import Verif.Auto.MatchDepProps
import Verif.Trie.LevCutProps

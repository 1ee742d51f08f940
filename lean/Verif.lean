import Verif.Props.Lists
import Verif.Props.Queues
import Verif.Props.Heaps
import Verif.Props.Trees
import Verif.Props.Bst
import Verif.Props.Avl
import Verif.Props.Splay
import Verif.Props.Treap
import Verif.Props.RedBlack
import Verif.Props.SkipList
import Verif.Props.Tries
import Verif.Props.Radix
import Verif.Props.Suffix
import Verif.Props.Links
import Verif.Props.LinksTreap
import Verif.Props.LinksRb
import Verif.Props.Rebuild
import Verif.Props.TrieShape
import Verif.Props.DrawTrees
import Verif.Props.DrawBinary
import Verif.Props.DrawLists
import Verif.Props.DrawSkip
import Verif.Props.DrawLabels
import Verif.Props.FromPath
import Verif.Props.SuffixList
import Verif.Props.Family
import Verif.Props.Nodes
import Verif.Props.RedBlackExact
import Verif.Props.AvlExact
import Verif.Props.RedBlackFate
import Verif.Props.SetRefine
import Verif.Props.BstReads
import Verif.Props.DrawQueues
import Verif.Props.QueuesExact
import Verif.Props.ListNodes
import Verif.Props.TreapExact
import Verif.Props.HeapLists
import Verif.Props.ListsExact
import Verif.Props.SuffixExact
import Verif.Props.TreapSeed
import Verif.Props.NodeAttrs
import Verif.Props.Mixed
import Verif.Props.MixedRing
import Verif.Props.Inverted
import Verif.Props.Iteration
import Verif.Props.SplayCost
import Verif.Props.TreeIteration
import Verif.Props.TrieCanon
import Verif.Props.HeapMirror
import Verif.Props.HeapPath
import Verif.Props.SkipListCost
import Verif.Props.SearchMean
import Verif.Props.TreapMean
import Verif.Props.RedBlackDeep
import Verif.Props.HeapifyCost
import Verif.Props.BuildCost
import Verif.Props.ListTurns
import Verif.Props.TrieIteration
import Verif.Props.BstNan
import Verif.Props.StackLimit
import Verif.Props.HeapNan
import Verif.Props.TreeNodes
import Verif.Props.Identity
import Verif.Props.PrioNan
import Verif.Props.SkipNan
import Verif.Props.TrieSizes
import Verif.Props.HeapShape
import Verif.Props.AvlNan
import Verif.Props.TrieBlank

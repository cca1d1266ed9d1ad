import Verif.Model.Avro
import Verif.Model.Path
import Verif.Model.Producer
import Verif.Model.Consumer
import Verif.Model.Ordering
import Verif.Props.Wire
import Verif.Props.Producer
import Verif.Props.Consumer
import Verif.Props.Block
import Verif.Props.Ordering
import Verif.Props.OrderingMore
import Verif.Props.OrderingGaps
import Verif.Model.System
import Verif.Model.Subscribers
import Verif.Props.System
import Verif.Model.Kafka
import Verif.Props.Kafka
import Verif.Model.Mux
import Verif.Model.Warmup
import Verif.Props.Mux
import Verif.Props.Warmup
import Verif.Model.Waiter
import Verif.Props.Waiter
import Verif.Model.Websocket
import Verif.Props.Websocket
import Verif.Model.Feed
import Verif.Model.Watch
import Verif.Props.Restart
import Verif.Props.Feed
import Verif.Props.Watch
import Verif.Props.Order
import Verif.Props.Fleet
import Verif.Props.Waiting
import Verif.Props.Latest
import Verif.Props.Recent
import Verif.Props.Forks
import Verif.Props.Endless
import Verif.Props.Handed
import Verif.Props.Redelivery
import Verif.Props.Stays
import Verif.Model.KafkaSystem
import Verif.Props.KafkaSystem
import Verif.Props.KafkaForks
import Verif.Model.WebsocketSystem
import Verif.Props.WebsocketSystem
import Verif.Props.WebsocketForks
import Verif.Model.Lifecycle
import Verif.Props.Lifecycle
import Verif.Props.KafkaClose
import Verif.Model.MuxConsumer
import Verif.Model.Nested
import Verif.Model.MuxReady
import Verif.Model.OmpClose
import Verif.Props.MuxConsumer
import Verif.Props.WebsocketReorg
import Verif.Model.Streams
import Verif.Model.TopicConsumer
import Verif.Props.Streams
import Verif.Model.WebsocketLife
import Verif.Props.WebsocketLife
import Verif.Props.WebsocketEnd
import Verif.Props.WebsocketTurn
import Verif.Props.EmptyStart
import Verif.Props.Nested
import Verif.Props.WebsocketOrder
import Verif.Props.MuxReady
import Verif.Props.OmpClose
import Verif.Props.TopicConsumer
import Verif.Model.KafkaConfig
import Verif.Props.KafkaConfig
import Verif.Model.Race
import Verif.Props.Race
import Verif.Model.DoneCalls
import Verif.Props.DoneCalls
import Verif.Props.Held
import Verif.Model.JsonText
import Verif.Props.JsonText
import Verif.Props.KafkaEndless
import Verif.Props.WebsocketEndless
import Verif.Model.WebsocketWhole
import Verif.Props.WebsocketWhole
import Verif.Props.WebsocketLink
import Verif.Checks.ProjectTests
import Verif.Model.NilWeight
import Verif.Props.NilWeight
import Verif.Spec.Json
import Verif.Spec.Message
import Verif.Props.JsonGrammar
import Verif.Model.Subscribe
import Verif.Spec.Subscribe
import Verif.Props.Subscribe
import Verif.Spec.Crash
import Verif.Props.Crash
import Verif.Props.Circle
import Verif.Spec.Resume
import Verif.Props.Resume
import Verif.Props.Lives
import Verif.Props.Below
import Verif.Props.BelowSystem
import Verif.Props.ForkLives
import Verif.Props.ForkPartition
import Verif.Props.ForkPoint
import Verif.Props.Times
import Verif.Props.KafkaLives
import Verif.Props.WaiterLeak
import Verif.Props.Announced
import Verif.Props.Mixed
import Verif.Props.MixedForks
import Verif.Props.MixedLives
import Verif.Props.MixedPublished
import Verif.Props.Exactly
import Verif.Spec.Whatever
import Verif.Props.Whatever
import Verif.Spec.WhateverTransports
import Verif.Props.WhateverTransports
import Verif.Props.WhateverSubscribers
import Verif.Spec.Client
import Verif.Props.Client
import Verif.Props.Noise
import Verif.Props.KafkaNoise
import Verif.Props.UpdateSlices
import Verif.Props.Redundant
import Verif.Props.ResumeText
import Verif.Props.WebsocketLives
import Verif.Props.Protocol
import Verif.Props.ProtocolSystem
import Verif.Props.Subscribers
import Verif.Props.SubscribersAcross
import Verif.Props.Moment
import Verif.Model.Regexp
import Verif.Model.Cat
import Verif.Spec.Regexp
import Verif.Spec.RegexpGrammar
import Verif.Spec.OrderingGaps
import Verif.Spec.Moment
import Verif.Props.Regexp
import Verif.Props.Cat
import Verif.Checks.RegexpTests
import Verif.Props.WebsocketForkLives
import Verif.Model.Scram
import Verif.Props.Scram
import Verif.Model.Resolve
import Verif.Spec.Resolve
import Verif.Props.Resolve
